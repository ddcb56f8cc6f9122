/-
Data that has a text form, and which texts stand for which data. Independent of the reader: the grammar
below is what a user of the language would write down.
-/
namespace Spec

/-- data with a text form -/
inductive Sexp where
  | int (n : Int)
  | bool (b : Bool)
  | nil
  | sym (name : List UInt8)
  | str (bytes : List UInt8)
  | cons (a d : Sexp)
deriving DecidableEq, Repr

/-- a proper list -/
def Sexp.list : List Sexp → Sexp
  | [] => .nil
  | x :: r => .cons x (Sexp.list r)

/-- ASCII text as bytes -/
def ascii (s : String) : List UInt8 := s.toList.map (fun c => UInt8.ofNat c.toNat)

/-- space, tab, newline, vertical tab, form feed, carriage return -/
def IsBlank (c : UInt8) : Prop := c = 32 ∨ (9 ≤ c.toNat ∧ c.toNat ≤ 13)

/-- runs of blanks and comments (a comment goes from `;` to the end of the line) -/
inductive Blanks : List UInt8 → Prop where
  | nil : Blanks []
  | blank {c r} (hc : IsBlank c) (h : Blanks r) : Blanks (c :: r)
  | comment {body r} (hb : (10 : UInt8) ∉ body) (h : Blanks r) : Blanks (59 :: body ++ 10 :: r)

def IsDigit (c : UInt8) : Prop := 48 ≤ c.toNat ∧ c.toNat ≤ 57

/-- characters that end a symbol or a number: blanks, parentheses, brackets, quotes, comma, semicolon -/
def IsDelim (c : UInt8) : Prop :=
  IsBlank c ∨ c = 40 ∨ c = 41 ∨ c = 34 ∨ c = 39 ∨ c = 96 ∨ c = 44 ∨ c = 59 ∨ c = 91 ∨ c = 93

/-- the text that follows does not continue a symbol or number -/
def Delimited (rest : List UInt8) : Prop := ∀ c r, rest = c :: r → IsDelim c

/-- the number a string of digits stands for -/
def digitsVal : List UInt8 → Nat → Nat
  | [], acc => acc
  | c :: r, acc => digitsVal r (acc * 10 + (c.toNat - 48))

/-- the inside of a string literal and the bytes it stands for: `\n` is a newline, a backslash before any
other byte stands for that byte, and any byte but quote and backslash stands for itself -/
inductive Literal : List UInt8 → List UInt8 → Prop where
  | nil : Literal [] []
  | plain {c l b} (h1 : c ≠ 34) (h2 : c ≠ 92) (h : Literal l b) : Literal (c :: l) (c :: b)
  | newline {l b} (h : Literal l b) : Literal (92 :: 110 :: l) (10 :: b)
  | escaped {c l b} (h1 : c ≠ 110) (h : Literal l b) : Literal (92 :: c :: l) (c :: b)

/-- names that are read as symbols: not empty, no delimiter and no NUL, not a number, not `true`/`false`; not
starting with the byte 255 (which is in no ASCII or UTF-8 text) -/
def SymName (n : List UInt8) : Prop :=
  n ≠ [] ∧ (∀ c ∈ n, ¬ IsDelim c ∧ c ≠ 0) ∧ (∀ c r, n = c :: r → ¬ IsDigit c ∧ c ≠ 255) ∧
  n ≠ ascii "true" ∧ n ≠ ascii "false" ∧
  (∀ r, n = 45 :: r → r = [] ∨ ∃ c ∈ r, ¬ IsDigit c)

mutual
/-- `Text closed t d`: the text `t` stands for the datum `d`. `closed` says that the text ends with a
closing character; otherwise it must be followed by a delimiter. Limits: 29 digits, 32-bit integers, 511
bytes for symbols and strings. -/
inductive Text : Bool → List UInt8 → Sexp → Prop where
  | blank {k ws t d} (hw : Blanks ws) (h : Text k t d) : Text k (ws ++ t) d
  | num {ds} (h0 : ds ≠ []) (h : ∀ c ∈ ds, IsDigit c) (hl : ds.length ≤ 29) (hv : digitsVal ds 0 < 2 ^ 31) :
      Text false ds (.int (digitsVal ds 0))
  | neg {ds} (h0 : ds ≠ []) (h : ∀ c ∈ ds, IsDigit c) (hl : ds.length < 511) (hv : digitsVal ds 0 ≤ 2 ^ 31) :
      Text false (45 :: ds) (.int (-(digitsVal ds 0 : Int)))
  | true : Text false (ascii "true") (.bool true)
  | false : Text false (ascii "false") (.bool false)
  | sym {n} (h : SymName n) (hl : n.length ≤ 511) : Text false n (.sym n)
  | str {l b} (h : Literal l b) (hl : b.length ≤ 511) : Text true (34 :: l ++ [34]) (.str b)
  | quote {k t d} (h : Text k t d) : Text k (39 :: t) (Sexp.list [.sym (ascii "quote"), d])
  | backquote {k t d} (h : Text k t d) : Text k (96 :: t) (Sexp.list [.sym (ascii "backquote"), d])
  | unquote {k t d} (h : Text k t d) : Text k (44 :: t) (Sexp.list [.sym (ascii "unquote"), d])
  | list {t ds} (h : ListText t ds) : Text true (40 :: t) (Sexp.list ds)
  | bracket {ws t ds hd} (hw : Blanks ws) (h : BracketText t ds hd) :
      Text true (91 :: ws ++ t) (.cons (.sym (if hd then ascii "list-rest" else ascii "list")) (Sexp.list ds))
/-- the rest of a list after its opening parenthesis -/
inductive ListText : List UInt8 → List Sexp → Prop where
  | close : ListText [41] []
  | item {k t d ws r ds} (h : Text k t d) (hw : Blanks ws) (hr : ListText r ds)
      (hk : k = false → Delimited (ws ++ r)) : ListText (t ++ ws ++ r) (d :: ds)
/-- the rest of a bracketed list (after blanks); the flag says whether there is a dot in it -/
inductive BracketText : List UInt8 → List Sexp → Bool → Prop where
  | close : BracketText [93] [] false
  | item {k t d ws r ds b} (h : Text k t d) (hd : ∀ c r', t = c :: r' → c ≠ 46 ∧ ¬ IsBlank c ∧ c ≠ 59)
      (hw : Blanks ws) (hr : BracketText r ds b) (hk : k = false → Delimited (ws ++ r)) :
      BracketText (t ++ ws ++ r) (d :: ds) b
  | dot {ws r ds b} (hw : Blanks ws) (hr : BracketText r ds b) : BracketText (46 :: ws ++ r) ds true
end

/-- the rest of a bracketed list that is never closed: the items, then the end of the text -/
inductive OpenBracketText : List UInt8 → List Sexp → Prop where
  | stop : OpenBracketText [] []
  | item {k t d ws r ds} (h : Text k t d) (hd : ∀ c r', t = c :: r' → c ≠ 46 ∧ ¬ IsBlank c ∧ c ≠ 59)
      (hw : Blanks ws) (hr : OpenBracketText r ds) (hk : k = false → Delimited (ws ++ r)) :
      OpenBracketText (t ++ ws ++ r) (d :: ds)

/-- a source file: forms with blanks and comments around them -/
inductive FileText : List UInt8 → List Sexp → Prop where
  | done {ws} (hw : Blanks ws) : FileText ws []
  | form {k t d r ds} (h : Text k t d) (hk : k = false → Delimited r) (hr : FileText r ds) :
      FileText (t ++ r) (d :: ds)

/-- the escaped form of a string: a backslash before each quote and backslash -/
def escape : List UInt8 → List UInt8
  | [] => []
  | c :: r => if c = 34 ∨ c = 92 then 92 :: c :: escape r else c :: escape r

/-- empty list or pair -/
def Sexp.isList : Sexp → Bool
  | .nil => true
  | .cons _ _ => true
  | _ => false

/-- data the printer renders faithfully: 32-bit integers, booleans, ordinary symbols, strings without
quote, backslash and NUL, and proper lists of such data -/
def Printable : Sexp → Prop
  | .int n => -(2 : Int) ^ 31 ≤ n ∧ n < 2 ^ 31
  | .bool _ => True
  | .nil => True
  | .sym n => SymName n ∧ n.length ≤ 254
  | .str b => (∀ c ∈ b, c ≠ 34 ∧ c ≠ 92 ∧ c ≠ 0) ∧ b.length ≤ 511
  | .cons a d => Printable a ∧ Printable d ∧ d.isList = true

/-- the text starts with a token that is too long for the reader's buffers: 30 digits, 512 symbol
characters, or a string literal of 512 bytes -/
def LongToken (t : List UInt8) : Prop :=
  (∃ ds r, t = ds ++ r ∧ ds.length = 30 ∧ ∀ c ∈ ds, IsDigit c) ∨
  (∃ n r, t = n ++ r ∧ n.length = 512 ∧ ∀ c ∈ n, ¬ IsDelim c) ∨
  (∃ l b r, t = 34 :: l ++ r ∧ Literal l b ∧ b.length = 512)

end Spec
