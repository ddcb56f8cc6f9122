/-
The little of C's lexical grammar that compiled code relies on: identifiers and string literals.
-/
namespace Spec

/-- letters, digits, underscore -/
def CIdentChar (c : UInt8) : Prop :=
  (97 ≤ c.toNat ∧ c.toNat ≤ 122) ∨ (65 ≤ c.toNat ∧ c.toNat ≤ 90) ∨ (48 ≤ c.toNat ∧ c.toNat ≤ 57) ∨ c = 95

/-- the shape of a C identifier: identifier characters, not empty, not starting with a digit -/
def CIdent (s : List UInt8) : Prop :=
  (∀ c ∈ s, CIdentChar c) ∧ ∃ c r, s = c :: r ∧ ¬ (48 ≤ c.toNat ∧ c.toNat ≤ 57)

/-- some words with the shape of an identifier that C reserves: `int`, `for`, `do`, `char`, `long` -/
def cReserved : List (List UInt8) :=
  [[105, 110, 116], [102, 111, 114], [100, 111], [99, 104, 97, 114], [108, 111, 110, 103]]

/-- value of an octal digit -/
def octal (c : UInt8) : Option Nat := if 48 ≤ c.toNat ∧ c.toNat ≤ 55 then some (c.toNat - 48) else none

/-- the simple escapes: `\n \t \" \\ \' \? \a \b \f \r \v` -/
def simpleEscape (c : UInt8) : Option UInt8 :=
  if c = 110 then some 10 else if c = 116 then some 9 else if c = 34 then some 34
  else if c = 92 then some 92 else if c = 39 then some 39 else if c = 63 then some 63
  else if c = 97 then some 7 else if c = 98 then some 8 else if c = 102 then some 12
  else if c = 114 then some 13 else if c = 118 then some 11 else none

/-- `CLiteral t b`: the characters `t` between the quotes of a C string literal denote the bytes `b`.
Plain characters (anything but quote, backslash and newline) denote themselves; a backslash starts a simple
escape or an octal escape of one, two or three digits (as many as there are). Hexadecimal and universal
character escapes are left out: they do not denote a backslash in two or three characters. -/
inductive CLiteral : List UInt8 → List UInt8 → Prop where
  | nil : CLiteral [] []
  | plain {c t b} (h1 : c ≠ 34) (h2 : c ≠ 92) (h3 : c ≠ 10) (h : CLiteral t b) : CLiteral (c :: t) (c :: b)
  | simple {c d t b} (hd : simpleEscape c = some d) (h : CLiteral t b) : CLiteral (92 :: c :: t) (d :: b)
  | octal1 {c1 d1 t b} (h1 : octal c1 = some d1) (hs : ∀ c r, t = c :: r → octal c = none)
      (h : CLiteral t b) : CLiteral (92 :: c1 :: t) (UInt8.ofNat d1 :: b)
  | octal2 {c1 c2 d1 d2 t b} (h1 : octal c1 = some d1) (h2 : octal c2 = some d2)
      (hs : ∀ c r, t = c :: r → octal c = none) (h : CLiteral t b) :
      CLiteral (92 :: c1 :: c2 :: t) (UInt8.ofNat (d1 * 8 + d2) :: b)
  | octal3 {c1 c2 c3 d1 d2 d3 t b} (h1 : octal c1 = some d1) (h2 : octal c2 = some d2) (h3 : octal c3 = some d3)
      (hb : d1 * 64 + d2 * 8 + d3 < 256) (h : CLiteral t b) :
      CLiteral (92 :: c1 :: c2 :: c3 :: t) (UInt8.ofNat (d1 * 64 + d2 * 8 + d3) :: b)

end Spec
