/-
Parsing expressions and their standard meaning (B. Ford, "Parsing Expression Grammars", 2004): a parse of an
input either fails, or succeeds with a value and the rest of the input. Ordered choice tries its second
alternative on the same input as the first; repetition is greedy; `not` consumes nothing.
-/
namespace Spec

/-- values parsers return -/
inductive PV where
  | nil
  | tok (n : Int)
  | str (s : List Int)
  | cons (a b : PV)
  | undef
  deriving DecidableEq

/-- list of values -/
def PV.ofList : List PV → PV
  | [] => .nil
  | a :: l => .cons a (PV.ofList l)

/-- parsers; tokens are integers (characters) -/
inductive Parser where
  | sat (p : Int → Bool)
  | eof
  | string (s : List Int)
  | seq (p q : Parser)
  | or (p q : Parser)
  | not (p : Parser)
  | plus (p : Parser)
  | star (p : Parser)
  | opt (p : Parser)
  | map (p : Parser) (f : PV → PV)
  | bind (p : Parser) (f : PV → Parser)

mutual
/-- `Peg p i r`: parsing `i` with `p` gives `r`: `none` is failure, `some (v, rest)` success -/
inductive Peg : Parser → List Int → Option (PV × List Int) → Prop where
  | satOk {p c i} : p c = true → Peg (.sat p) (c :: i) (some (.tok c, i))
  | satFail {p c i} : p c = false → Peg (.sat p) (c :: i) none
  | satEnd {p} : Peg (.sat p) [] none
  | eofOk : Peg .eof [] (some (.nil, []))
  | eofFail {c i} : Peg .eof (c :: i) none
  | strOk {s i} : Peg (.string s) (s ++ i) (some (.str s, i))
  | strFail {s i} : ¬ s <+: i → Peg (.string s) i none
  | seqFail {p q i} : Peg p i none → Peg (.seq p q) i none
  | seqFail2 {p q i v j} : Peg p i (some (v, j)) → Peg q j none → Peg (.seq p q) i none
  | seqOk {p q i v j w k} : Peg p i (some (v, j)) → Peg q j (some (w, k)) → Peg (.seq p q) i (some (.cons v w, k))
  | orLeft {p q i r} : Peg p i (some r) → Peg (.or p q) i (some r)
  | orRight {p q i r} : Peg p i none → Peg q i r → Peg (.or p q) i r
  | notOk {p i} : Peg p i none → Peg (.not p) i (some (.undef, i))
  | notFail {p i r} : Peg p i (some r) → Peg (.not p) i none
  | star {p i l j} : PegMany p i l j → Peg (.star p) i (some (.ofList l, j))
  | plusOk {p i v l j} : PegMany p i (v :: l) j → Peg (.plus p) i (some (.ofList (v :: l), j))
  | plusFail {p i} : Peg p i none → Peg (.plus p) i none
  | optOk {p i r} : Peg p i (some r) → Peg (.opt p) i (some r)
  | optNone {p i} : Peg p i none → Peg (.opt p) i (some (.nil, i))
  | mapOk {p f i v j} : Peg p i (some (v, j)) → Peg (.map p f) i (some (f v, j))
  | mapFail {p f i} : Peg p i none → Peg (.map p f) i none
  | bindOk {p f i v j r} : Peg p i (some (v, j)) → Peg (f v) j r → Peg (.bind p f) i r
  | bindFail {p f i} : Peg p i none → Peg (.bind p f) i none

/-- greedy repetition: parse until the parser fails -/
inductive PegMany : Parser → List Int → List PV → List Int → Prop where
  | done {p i} : Peg p i none → PegMany p i [] i
  | more {p i v j l k} : Peg p i (some (v, j)) → PegMany p j l k → PegMany p i (v :: l) k
end

end Spec
