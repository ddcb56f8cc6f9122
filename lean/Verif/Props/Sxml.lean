import Verif.Spec.Xml
import Verif.Model.Sxml
import Verif.Props.Values
import Verif.Props.Strings
import Verif.Props.Reader
/-
C52: XML output.
-/
open Spec
namespace Cora.Sxml

/-- the buffer holds the text `out` -/
def Holds (b : Buf) (out : Bytes) : Prop := b.size = out.length ∧ b.size ≤ b.data.length ∧ b.data.take b.size = out

theorem nextSize_spec (n : Nat) (h : n ≤ 2 ^ 30) : ∃ k : Int, nextSize n = some k ∧ (n : Int) ≤ k ∧ k ≤ n + 1024 + 4 := by
  unfold nextSize
  by_cases h1 : n < 1024
  · rw [if_pos h1]; exact ⟨_, rfl, by omega, by omega⟩
  · rw [if_neg h1]
    obtain ⟨x, hx, hf, -⟩ := C02_storage_exact (n : Int) (by omega)
    have h2 : makeNumber 2 = some 0x4000000000000000#64 := by decide +kernel
    have hfix : isfixnum x = true := by
      unfold fixnum at hf
      split at hf
      · rename_i hc; simp at hc; exact hc.1
      · simp at hf
    have hq0 : (x / 0x4000000000000000#64).toNat < 4 := by
      rw [BitVec.toNat_udiv]
      have := x.isLt
      rw [show (0x4000000000000000#64).toNat = 4611686018427387904 by decide]
      omega
    have hq : (x / 0x4000000000000000#64).toInt = ((x / 0x4000000000000000#64).toNat : Int) :=
      BitVec.toInt_eq_toNat_of_lt (by omega)
    obtain ⟨o, ho, hg, -⟩ := C02_storage_exact (x / 0x4000000000000000#64).toInt (by omega)
    have hd : primDiv x 0x4000000000000000#64 = some o := by
      unfold primDiv
      rw [hfix, show isfixnum 0x4000000000000000#64 = true by decide +kernel]
      rw [if_pos (by decide), if_neg (by decide)]
      exact ho
    simp only [hx, h2, hd, hg, Option.bind_eq_bind, Option.bind_some]
    exact ⟨_, rfl, by omega, by omega⟩

theorem append_spec (junk : Nat → Nat → Byte) {b : Buf} {out : Bytes} (hb : Holds b out) (s : Bytes)
    (hl : (out ++ s).length ≤ 2 ^ 30) : ∃ b', bufferAppend junk b s = some b' ∧ Holds b' (out ++ s) := by
  obtain ⟨h1, h2, h3⟩ := hb
  rw [List.length_append] at hl
  -- writing into a buffer that is large enough
  have fits : ∀ d : Bytes, d.take b.size = out → b.size + s.length ≤ d.length →
      ∃ b', (do let data ← write d b.size s; some (⟨data, b.size + s.length⟩ : Buf)) = some b' ∧ Holds b' (out ++ s) := by
    intro d hd hdl
    rw [write_spec hdl]
    refine ⟨_, rfl, ?_, ?_, ?_⟩
    · simp [h1]
    · simp; omega
    · simp only []
      rw [hd, List.take_append_of_le_length (by simp [h1])]
      rw [List.take_of_length_le (by simp [h1])]
  unfold bufferAppend
  by_cases hc : b.size + s.length > b.data.length
  · obtain ⟨k, hk, k1, k2⟩ := nextSize_spec (b.size + s.length) (by omega)
    have hby : bytes junk k = some (malloc (junk k.toNat) k.toNat) := by
      unfold bytes; rw [if_pos (by omega)]
    have hr : readRange b.data 0 b.size = some out := by
      have := readRange_nat b.data 0 b.size (by omega)
      simp only [List.drop_zero, h3] at this
      exact this
    have hm : (malloc (junk k.toNat) k.toNat).length = k.toNat := by simp [malloc]
    have hw : write (malloc (junk k.toNat) k.toNat) 0 out =
        some (out ++ (malloc (junk k.toNat) k.toNat).drop out.length) := by
      rw [write_spec (by rw [hm]; omega)]
      simp
    obtain ⟨b', e1, e2⟩ := fits (out ++ (malloc (junk k.toNat) k.toNat).drop out.length)
      (by rw [h1, List.take_left]) (by simp [hm]; omega)
    refine ⟨b', ?_, e2⟩
    rw [if_pos hc]
    simp only [hk, hby, hr, hw, Option.bind_eq_bind, Option.bind_some]
    exact e1
  · obtain ⟨b', e1, e2⟩ := fits b.data h3 (by omega)
    refine ⟨b', ?_, e2⟩
    rw [if_neg hc]
    exact e1

/-- what one byte becomes -/
def esc (c : Byte) : Bytes :=
  if c = 34 then [38, 113, 117, 111, 116, 59]
  else if c = 38 then [38, 97, 109, 112, 59]
  else if c = 92 then [38, 97, 112, 111, 115, 59]
  else if c = 60 then [38, 108, 116, 59]
  else if c = 62 then [38, 103, 116, 59]
  else [c]

theorem charVal_eq (c : Byte) (n : Nat) (hn : n < 128) : charVal c = n ↔ c = UInt8.ofNat n := by
  unfold charVal
  rw [← UInt8.toNat_inj, UInt8.toNat_ofNat']
  have := c.toNat_lt
  split <;> omega

theorem escapeChar_spec (s : Bytes) (i : Nat) (hi : i < s.length) (hs : s.length < 2 ^ 31) :
    escapeChar s i = some (esc s[i]) := by
  have h1 : bytesRef s i = some (charVal s[i]) := by
    unfold bytesRef
    rw [if_pos (by omega)]
    simp [List.getElem?_eq_getElem hi]
  have h2 : stringIndex s i = some [s[i]] := by
    unfold stringIndex
    have : toInt32 i = i := by
      unfold toInt32
      rw [Int.bmod_eq_of_le] <;> omega
    rw [this]
    have := readRange_nat s i 1 (by omega)
    rw [show ((1 : Nat) : Int) = 1 from rfl] at this
    rw [this, List.drop_eq_getElem_cons hi]
    rfl
  unfold escapeChar esc
  simp only [h1, Option.bind_eq_bind, Option.bind_some, h2]
  have e := fun n hn => charVal_eq s[i] n hn
  have e34 : charVal s[i] = 34 ↔ s[i] = 34 := e 34 (by omega)
  have e38 : charVal s[i] = 38 ↔ s[i] = 38 := e 38 (by omega)
  have e92 : charVal s[i] = 92 ↔ s[i] = 92 := e 92 (by omega)
  have e60 : charVal s[i] = 60 ↔ s[i] = 60 := e 60 (by omega)
  have e62 : charVal s[i] = 62 ↔ s[i] = 62 := e 62 (by omega)
  simp only [e34, e38, e92, e60, e62]
  repeat' split <;> try rfl

theorem escaped_spec (junk : Nat → Nat → Byte) (s : Bytes) (hs : s.length < 2 ^ 31) (i : Nat) (hi : i ≤ s.length) {b : Buf}
    {out : Bytes} (hb : Holds b out) (hl : (out ++ (s.drop i).flatMap esc).length ≤ 2 ^ 30) :
    ∃ b', escapedXml junk s i b = some b' ∧ Holds b' (out ++ (s.drop i).flatMap esc) := by
  induction hk : s.length - i generalizing i b out with
  | zero =>
    have : i = s.length := by omega
    subst this
    rw [escapedXml, if_neg (by omega)]
    refine ⟨b, rfl, ?_⟩
    simpa using hb
  | succ k ih =>
    have hlt : i < s.length := by omega
    rw [escapedXml, if_pos hlt, escapeChar_spec s i hlt hs]
    rw [List.drop_eq_getElem_cons hlt, List.flatMap_cons, ← List.append_assoc] at hl ⊢
    obtain ⟨b1, e1, h1⟩ := append_spec junk hb (esc s[i]) (by rw [List.length_append] at hl; omega)
    simp only [Option.bind_eq_bind, Option.bind_some, e1]
    exact ih (i + 1) (by omega) h1 hl (by omega)

/-- what the five replacements stand for: the backslash becomes an apostrophe -/
def asWritten (c : Byte) : Byte := if c = 92 then 39 else c

theorem esc_text (s : Bytes) : XmlText (s.flatMap esc) (s.map asWritten) := by
  induction s with
  | nil => exact .nil
  | cons c s ih =>
    rw [List.flatMap_cons, List.map_cons]
    unfold esc asWritten
    by_cases h1 : c = 34
    · subst h1; exact .quot ih
    by_cases h2 : c = 38
    · subst h2; exact .amp ih
    by_cases h3 : c = 92
    · subst h3; exact .apos ih
    by_cases h4 : c = 60
    · subst h4; exact .lt ih
    by_cases h5 : c = 62
    · subst h5; exact .gt ih
    simp only [h1, h2, h3, h4, h5, if_false]
    exact .plain ⟨h4, h5, h2, h1⟩ ih

theorem XmlText.fun {e s t : List UInt8} (h1 : XmlText e s) (h2 : XmlText e t) : s = t := by
  induction h1 generalizing t with
  | nil => cases h2; rfl
  | @plain c e s hc h ih =>
    generalize he : c :: e = e' at h2
    cases h2 with
    | nil => cases he
    | plain hc' h' => injection he with a b; subst a; subst b; rw [ih h']
    | lt h' => injection he with a b; exact absurd a hc.2.2.1
    | gt h' => injection he with a b; exact absurd a hc.2.2.1
    | amp h' => injection he with a b; exact absurd a hc.2.2.1
    | quot h' => injection he with a b; exact absurd a hc.2.2.1
    | apos h' => injection he with a b; exact absurd a hc.2.2.1
  | @lt e s h ih =>
    generalize he : [38, 108, 116, 59] ++ e = e' at h2
    cases h2 with
    | nil => cases he
    | plain hc' h' => injection he with a b; exact absurd a.symm hc'.2.2.1
    | lt h' => injection he with a b; injection b with _ b; injection b with _ b; injection b with _ b; subst b; rw [ih h']
    | gt h' => simp at he
    | amp h' => simp at he
    | quot h' => simp at he
    | apos h' => simp at he
  | @gt e s h ih =>
    generalize he : [38, 103, 116, 59] ++ e = e' at h2
    cases h2 with
    | nil => cases he
    | plain hc' h' => injection he with a b; exact absurd a.symm hc'.2.2.1
    | gt h' => injection he with a b; injection b with _ b; injection b with _ b; injection b with _ b; subst b; rw [ih h']
    | lt h' => simp at he
    | amp h' => simp at he
    | quot h' => simp at he
    | apos h' => simp at he
  | @amp e s h ih =>
    generalize he : [38, 97, 109, 112, 59] ++ e = e' at h2
    cases h2 with
    | nil => cases he
    | plain hc' h' => injection he with a b; exact absurd a.symm hc'.2.2.1
    | amp h' => simp at he; subst he; rw [ih h']
    | lt h' => simp at he
    | gt h' => simp at he
    | quot h' => simp at he
    | apos h' => simp at he
  | @quot e s h ih =>
    generalize he : [38, 113, 117, 111, 116, 59] ++ e = e' at h2
    cases h2 with
    | nil => cases he
    | plain hc' h' => injection he with a b; exact absurd a.symm hc'.2.2.1
    | quot h' => simp at he; subst he; rw [ih h']
    | lt h' => simp at he
    | gt h' => simp at he
    | amp h' => simp at he
    | apos h' => simp at he
  | @apos e s h ih =>
    generalize he : [38, 97, 112, 111, 115, 59] ++ e = e' at h2
    cases h2 with
    | nil => cases he
    | plain hc' h' => injection he with a b; exact absurd a.symm hc'.2.2.1
    | apos h' => simp at he; subst he; rw [ih h']
    | lt h' => simp at he
    | gt h' => simp at he
    | amp h' => simp at he
    | quot h' => simp at he

theorem makeBuffer_spec (junk : Nat → Nat → Byte) : ∃ b, makeBuffer junk = some b ∧ Holds b [] := by
  refine ⟨⟨malloc (junk 16) 16, 0⟩, ?_, rfl, by simp, rfl⟩
  unfold makeBuffer bytes
  rw [if_pos (by omega)]
  rfl

theorem toString_spec {b : Buf} {out : Bytes} (h : Holds b out) (hl : out.length ≤ 2 ^ 30) :
    bufferToString b = some out := by
  obtain ⟨h1, h2, h3⟩ := h
  have e0 : toInt32 0 = 0 := by decide
  have e1 : toInt32 b.size = b.size := by
    unfold toInt32
    rw [Int.bmod_eq_of_le] <;> omega
  unfold bufferToString stringSlice
  simp only [e0, e1]
  rw [if_neg (by omega), if_neg (by omega), if_neg (by omega)]
  have := readRange_nat b.data 0 b.size (by omega)
  simp only [List.drop_zero, h3] at this
  simpa using this

theorem esc_length (s : Bytes) : s.length ≤ (s.flatMap esc).length ∧ (s.flatMap esc).length ≤ 6 * s.length := by
  induction s with
  | nil => simp
  | cons c s ih =>
    rw [List.flatMap_cons, List.length_append, List.length_cons]
    have : 1 ≤ (esc c).length ∧ (esc c).length ≤ 6 := by
      unfold esc
      split
      · simp
      split
      · simp
      split
      · simp
      split
      · simp
      split <;> simp
    omega

/-- C52 (a): the text written for a string contains no raw `<`, `>`, `"`, and `&` only at the start of an entity —
so no text can introduce markup — and, read as XML, it stands for the string with every backslash turned into an
apostrophe. Holds for every string (up to 2^30 bytes of output). The rest of C52 (reading back the original)
holds exactly for strings without a backslash, see (b). -/
theorem C52_no_markup_partial (junk : Nat → Nat → Byte) (s : List UInt8) :
    ∃ e, XmlText e (s.map (fun c => if c = 92 then 39 else c)) ∧
      (e.length ≤ 2 ^ 30 → xml junk (.str s) = some e) := by
  refine ⟨s.flatMap esc, esc_text s, fun hl => ?_⟩
  have hs := esc_length s
  obtain ⟨b, e1, hb⟩ := makeBuffer_spec junk
  obtain ⟨b', e2, hb'⟩ := escaped_spec junk s (by omega) 0 (by omega) hb (by rw [List.nil_append, List.drop_zero]; exact hl)
  rw [List.nil_append, List.drop_zero] at hb'
  have e3 := toString_spec hb' hl
  unfold xml
  rw [e1, Option.bind_eq_bind, Option.bind_some, xmlH, e2, Option.bind_some]
  exact e3

/-- C52 (b): the output stands for the string itself exactly if the string contains no backslash. -/
theorem C52_unescapes_partial (junk : Nat → Nat → Byte) (s e : List UInt8) (h : xml junk (.str s) = some e)
    (hl : 6 * s.length ≤ 2 ^ 30) : XmlText e s ↔ (92 : UInt8) ∉ s := by
  have hs := esc_length s
  have h' : e = s.flatMap esc := by
    obtain ⟨b, e1, hb⟩ := makeBuffer_spec junk
    obtain ⟨b', e2, hb'⟩ := escaped_spec junk s (by omega) 0 (by omega) hb (by rw [List.nil_append, List.drop_zero]; omega)
    rw [List.nil_append, List.drop_zero] at hb'
    have e3 := toString_spec hb' (by omega)
    unfold xml at h
    rw [e1, Option.bind_eq_bind, Option.bind_some, xmlH, e2, Option.bind_some, e3] at h
    exact (Option.some.inj h).symm
  subst h'
  constructor
  · intro ht hm
    have e := XmlText.fun ht (esc_text s)
    have : ∀ c ∈ s, c = asWritten c := by
      clear ht hm h hl hs
      intro c hc
      induction s with
      | nil => simp at hc
      | cons a s ih =>
        rw [List.map_cons] at e
        injection e with e1 e2
        rcases List.mem_cons.mp hc with hc | hc
        · rw [hc]; exact e1
        · exact ih e2 hc
    exact absurd (this 92 hm) (by decide)
  · intro hm
    have : s.map asWritten = s := by
      conv => rhs; rw [← List.map_id s]
      refine List.map_congr_left fun c hc => ?_
      unfold asWritten
      rw [if_neg (by rintro rfl; exact hm hc)]
      rfl
    have ht := esc_text s
    rw [this] at ht
    exact ht

/-! ### documents -/

/-- what an attribute is written as -/
def renderAttr : XmlAttr → Bytes
  | .flag n => 32 :: n
  | .text n v => 32 :: n ++ [61, 34] ++ v.flatMap esc ++ [34]
  | .num n k => 32 :: n ++ [61, 34] ++ Reader.printInt k ++ [34]

/-- what a list of attributes is written as -/
def renderAttrs : List XmlAttr → Bytes
  | [] => []
  | a :: r => renderAttr a ++ renderAttrs r

mutual
/-- what a node is written as -/
def render : XmlNode → Bytes
  | .text s => s.flatMap esc
  | .elem n as [] => 60 :: n ++ renderAttrs as ++ [32, 47, 62]
  | .elem n as (b :: bs) => 60 :: n ++ renderAttrs as ++ [62] ++ (render b ++ renders bs) ++ [60, 47] ++ n ++ [62]
/-- what content is written as -/
def renders : List XmlNode → Bytes
  | [] => []
  | n :: r => render n ++ renders r
end

/-- appends `t` to any buffer, within the size limit -/
def Appends (f : Buf → Option Buf) (t : Bytes) : Prop :=
  ∀ b out, Holds b out → (out ++ t).length ≤ 2 ^ 30 → ∃ b', f b = some b' ∧ Holds b' (out ++ t)

theorem Appends.bind {f g : Buf → Option Buf} {t u : Bytes} (hf : Appends f t) (hg : Appends g u) :
    Appends (fun b => (f b).bind g) (t ++ u) := by
  intro b out hb hl
  rw [← List.append_assoc] at hl ⊢
  obtain ⟨b1, e1, h1⟩ := hf b out hb (by rw [List.length_append] at hl; omega)
  obtain ⟨b2, e2, h2⟩ := hg b1 _ h1 hl
  exact ⟨b2, by simp only [e1, Option.bind_some]; exact e2, h2⟩

theorem appends_append (junk : Nat → Nat → Byte) (s : Bytes) : Appends (fun b => bufferAppend junk b s) s :=
  fun _ _ hb hl => append_spec junk hb s hl

theorem appends_escaped (junk : Nat → Nat → Byte) (s : Bytes) :
    Appends (fun b => escapedXml junk s 0 b) (s.flatMap esc) := by
  intro b out hb hl
  have hs := esc_length s
  have := escaped_spec junk s (by rw [List.length_append] at hl; omega) 0 (by omega) hb (by rw [List.drop_zero]; exact hl)
  rw [List.drop_zero] at this
  exact this

theorem appends_skip : Appends some [] := fun b out hb _ => ⟨b, rfl, by rw [List.append_nil]; exact hb⟩

theorem appends_attr (junk : Nat → Nat → Byte) (a : XmlAttr) :
    Appends (fun b => attribute1 junk a.form b) (renderAttr a) := by
  cases a with
  | flag n => exact (appends_append junk [32]).bind (appends_append junk n)
  | text n v =>
    have := (appends_append junk [32]).bind ((appends_append junk n).bind ((appends_append junk [61, 34]).bind
      ((appends_escaped junk v).bind (appends_append junk [34]))))
    simpa [renderAttr, XmlAttr.form, Sexp.list, attribute1, attributeValue] using this
  | num n k =>
    have := (appends_append junk [32]).bind ((appends_append junk n).bind ((appends_append junk [61, 34]).bind
      ((appends_append junk (Reader.printInt k)).bind (appends_append junk [34]))))
    simpa [renderAttr, XmlAttr.form, Sexp.list, attribute1, attributeValue] using this

theorem appends_attrs (junk : Nat → Nat → Byte) (as : List XmlAttr) :
    Appends (fun b => attributes junk (.list (as.map XmlAttr.form)) b) (renderAttrs as) := by
  induction as with
  | nil => exact appends_skip
  | cons a as ih => exact (appends_attr junk a).bind ih

mutual
theorem appends_node (junk : Nat → Nat → Byte) : ∀ n : XmlNode, Appends (fun b => xmlH junk n.form b) (render n)
  | .text s => by
    have := appends_escaped junk s
    simpa [XmlNode.form, xmlH, render] using this
  | .elem n as [] => by
    have := (appends_append junk [60]).bind ((appends_append junk n).bind ((appends_attrs junk as).bind
      (appends_append junk [32, 47, 62])))
    simpa [XmlNode.form, XmlNode.forms, xmlH, render] using this
  | .elem n as (b :: bs) => by
    have h1 := appends_node junk b
    have h2 := appends_nodes junk bs
    have := (appends_append junk [60]).bind ((appends_append junk n).bind ((appends_attrs junk as).bind
      ((appends_append junk [62]).bind ((h1.bind h2).bind ((appends_append junk [60, 47]).bind
      ((appends_append junk n).bind (appends_append junk [62])))))))
    simpa [XmlNode.form, XmlNode.forms, xmlH, forEachH, render] using this
theorem appends_nodes (junk : Nat → Nat → Byte) :
    ∀ l : List XmlNode, Appends (fun b => forEachH junk (XmlNode.forms l) b) (renders l)
  | [] => by simpa [XmlNode.forms, forEachH, renders] using appends_skip
  | n :: r => by
    have := (appends_node junk n).bind (appends_nodes junk r)
    simpa [XmlNode.forms, forEachH, renders] using this
end

/-- no text in the document contains a backslash -/
def XmlAttr.plain : XmlAttr → Prop
  | .text _ v => (92 : UInt8) ∉ v
  | _ => True

mutual
/-- no text in the document contains a backslash -/
def XmlNode.plain : XmlNode → Prop
  | .text s => (92 : UInt8) ∉ s
  | .elem _ as b => (∀ a ∈ as, XmlAttr.plain a) ∧ XmlNode.plains b
/-- no text in the content contains a backslash -/
def XmlNode.plains : List XmlNode → Prop
  | [] => True
  | n :: r => XmlNode.plain n ∧ XmlNode.plains r
end

theorem esc_plain {s : Bytes} (hm : (92 : UInt8) ∉ s) : XmlText (s.flatMap esc) s := by
  have : s.map asWritten = s := by
    conv => rhs; rw [← List.map_id s]
    refine List.map_congr_left fun c hc => ?_
    unfold asWritten
    rw [if_neg (by rintro rfl; exact hm hc)]
    rfl
  have ht := esc_text s
  rw [this] at ht
  exact ht

theorem printInt_decimal (k : Int) : Decimal (Reader.printInt k) k := by
  obtain ⟨h1, h2, h3⟩ := Reader.decDigits_spec k.natAbs
  refine ⟨_, h1, h2, ?_⟩
  have := h3 0
  unfold Reader.printInt
  by_cases hk : k < 0
  · right; rw [if_pos hk]; exact ⟨hk, rfl, by rw [this]; omega⟩
  · left; rw [if_neg hk]; exact ⟨by omega, rfl, by rw [this]; omega⟩

theorem attrs_xml (as : List XmlAttr) (h : ∀ a ∈ as, XmlAttr.plain a) : XmlAttrs (renderAttrs as) as := by
  induction as with
  | nil => exact .nil
  | cons a as ih =>
    refine .cons ?_ (ih fun x hx => h x (by simp [hx]))
    have ha := h a (by simp)
    cases a with
    | flag n => exact .flag
    | text n v => exact .text (esc_plain ha)
    | num n k => exact .num (printInt_decimal k)

mutual
theorem node_xml : ∀ n : XmlNode, XmlNode.plain n → XmlDoc (render n) n
  | .text s, h => by
    rw [render]; exact .text (esc_plain (by simpa [XmlNode.plain] using h))
  | .elem n as [], h => by
    rw [render]; rw [XmlNode.plain] at h; exact .empty (attrs_xml as h.1)
  | .elem n as (b :: bs), h => by
    rw [XmlNode.plain, XmlNode.plains] at h
    have h1 := node_xml b h.2.1
    have h2 := nodes_xml bs h.2.2
    rw [render]
    exact .elem (attrs_xml as h.1) (.cons h1 h2)
theorem nodes_xml : ∀ l : List XmlNode, XmlNode.plains l → XmlBody (renders l) l
  | [], _ => by rw [renders]; exact .nil
  | n :: r, h => by
    rw [XmlNode.plains] at h
    rw [renders]
    exact .cons (node_xml n h.1) (nodes_xml r h.2)
end

/-- C52 (c): a whole document. For every tree of elements, attributes and texts without backslashes, the output is
that tree written as XML: tags properly nested and matched, attribute values between quotes, all texts and values
standing for the originals. (Tag and attribute names are copied as they are.) -/
theorem C52_document_partial (junk : Nat → Nat → Byte) (n : XmlNode) (h : XmlNode.plain n) :
    ∃ t, XmlDoc t n ∧ (t.length ≤ 2 ^ 30 → xml junk n.form = some t) := by
  refine ⟨render n, node_xml n h, fun hl => ?_⟩
  obtain ⟨b, e1, hb⟩ := makeBuffer_spec junk
  obtain ⟨b', e2, hb'⟩ := appends_node junk n b [] hb (by rw [List.nil_append]; exact hl)
  rw [List.nil_append] at hb'
  have e2 : xmlH junk n.form b = some b' := e2
  have e3 := toString_spec hb' hl
  unfold xml
  rw [e1, Option.bind_eq_bind, Option.bind_some, e2, Option.bind_some]
  exact e3

/-- `(p (@ (id 7) (title "a<b")) "x & y" (br (@)))` -/
example : XmlNode.plain (.elem [112] [.num [105, 100] 7, .text [116] [97, 60, 98]]
    [.text [120, 32, 38, 32, 121], .elem [98, 114] [] []]) := by
  simp [XmlNode.plain, XmlNode.plains, XmlAttr.plain]

end Cora.Sxml
