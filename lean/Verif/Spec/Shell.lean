/-
What `/bin/sh -c` does with a command of plain words: it splits it at blanks.
-/
namespace Spec

/-- the characters that stand for themselves in a command: letters, digits and `% + , - . / : @ _` (not `=`, which may
make an assignment) -/
def plainChar (c : UInt8) : Bool :=
  (decide (48 ≤ c.toNat) && decide (c.toNat ≤ 58)) || (decide (64 ≤ c.toNat) && decide (c.toNat ≤ 90)) ||
    (decide (97 ≤ c.toNat) && decide (c.toNat ≤ 122)) || c.toNat == 37 || (decide (43 ≤ c.toNat) && decide (c.toNat ≤ 47)) ||
    c.toNat == 95

/-- a plain word: not empty, plain characters -/
def plainWord (w : List UInt8) : Prop := w ≠ [] ∧ ∀ c ∈ w, plainChar c = true

/-- split at blanks; `cur` is the word being read -/
def shellWords : List UInt8 → List UInt8 → List (List UInt8)
  | cur, [] => if cur = [] then [] else [cur]
  | cur, c :: r =>
    if c = 32 then (if cur = [] then shellWords [] r else cur :: shellWords [] r) else shellWords (cur ++ [c]) r

end Spec
