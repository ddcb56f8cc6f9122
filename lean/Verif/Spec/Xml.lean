import Verif.Spec.Sexp
/-
XML text and documents.
-/
namespace Spec

/-- `XmlText e s`: the bytes `e` are XML character data (usable between tags and between double quotes) standing
for the text `s`: no `<`, `>`, `"`, and `&` only in one of the five predefined entities. -/
inductive XmlText : List UInt8 → List UInt8 → Prop where
  | nil : XmlText [] []
  | plain {c e s} (h : c ≠ 60 ∧ c ≠ 62 ∧ c ≠ 38 ∧ c ≠ 34) : XmlText e s → XmlText (c :: e) (c :: s)
  | lt {e s} : XmlText e s → XmlText ([38, 108, 116, 59] ++ e) (60 :: s)
  | gt {e s} : XmlText e s → XmlText ([38, 103, 116, 59] ++ e) (62 :: s)
  | amp {e s} : XmlText e s → XmlText ([38, 97, 109, 112, 59] ++ e) (38 :: s)
  | quot {e s} : XmlText e s → XmlText ([38, 113, 117, 111, 116, 59] ++ e) (34 :: s)
  | apos {e s} : XmlText e s → XmlText ([38, 97, 112, 111, 115, 59] ++ e) (39 :: s)

/-- an attribute: a name alone, a name with a text, or a name with a number -/
inductive XmlAttr where
  | flag (name : List UInt8)
  | text (name value : List UInt8)
  | num (name : List UInt8) (value : Int)

/-- documents: text and elements -/
inductive XmlNode where
  | text (s : List UInt8)
  | elem (name : List UInt8) (attrs : List XmlAttr) (body : List XmlNode)

/-- decimal notation of an integer -/
def Decimal (ds : List UInt8) (n : Int) : Prop :=
  ∃ d : List UInt8, d ≠ [] ∧ (∀ c ∈ d, IsDigit c) ∧
    ((0 ≤ n ∧ ds = d ∧ (digitsVal d 0 : Int) = n) ∨ (n < 0 ∧ ds = 45 :: d ∧ (digitsVal d 0 : Int) = -n))

/-- how an attribute is written -/
inductive XmlAttrText : List UInt8 → XmlAttr → Prop where
  | flag {n} : XmlAttrText (32 :: n) (.flag n)
  | text {n e s} : XmlText e s → XmlAttrText (32 :: n ++ [61, 34] ++ e ++ [34]) (.text n s)
  | num {n ds k} : Decimal ds k → XmlAttrText (32 :: n ++ [61, 34] ++ ds ++ [34]) (.num n k)

/-- a list of attributes -/
inductive XmlAttrs : List UInt8 → List XmlAttr → Prop where
  | nil : XmlAttrs [] []
  | cons {t a ts as} : XmlAttrText t a → XmlAttrs ts as → XmlAttrs (t ++ ts) (a :: as)

mutual
/-- `XmlDoc t n`: the bytes `t` are the node `n` written as XML: tags properly nested, `<name attrs />` for an
element without content -/
inductive XmlDoc : List UInt8 → XmlNode → Prop where
  | text {e s} : XmlText e s → XmlDoc e (.text s)
  | empty {n ta as} : XmlAttrs ta as → XmlDoc (60 :: n ++ ta ++ [32, 47, 62]) (.elem n as [])
  | elem {n ta as tb b bs} : XmlAttrs ta as → XmlBody tb (b :: bs) →
      XmlDoc (60 :: n ++ ta ++ [62] ++ tb ++ [60, 47] ++ n ++ [62]) (.elem n as (b :: bs))
/-- content: nodes one after the other -/
inductive XmlBody : List UInt8 → List XmlNode → Prop where
  | nil : XmlBody [] []
  | cons {t n ts ns} : XmlDoc t n → XmlBody ts ns → XmlBody (t ++ ts) (n :: ns)
end

/-- an attribute as data: `name`, `(name "value")` or `(name 5)` -/
def XmlAttr.form : XmlAttr → Sexp
  | .flag n => .sym n
  | .text n v => .list [.sym n, .str v]
  | .num n k => .list [.sym n, .int k]

mutual
/-- a node as data, the way a user of the library writes it: a string, `(tag (@ attrs...) body...)` -/
def XmlNode.form : XmlNode → Sexp
  | .text s => .str s
  | .elem n as b => .cons (.sym n) (.cons (.cons (.sym [64]) (.list (as.map XmlAttr.form))) (XmlNode.forms b))
/-- a list of nodes as data -/
def XmlNode.forms : List XmlNode → Sexp
  | [] => .nil
  | n :: r => .cons n.form (XmlNode.forms r)
end

end Spec
