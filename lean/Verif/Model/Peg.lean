import Verif.Spec.Peg
/-
Model of /repo/lib/peg.cora. A parser is a function from token lists to `['ok v rest]` or `['fail rest]`; here
the combinators are the constructors of `Spec.Parser` and `run` gives the function each of them makes. `fuel`:
the number of nested calls allowed; running out of it says nothing about the program. `trap`: no clause of a
`match` or `func` applies.
-/
open Spec
namespace Cora.Peg

/-- what calling a parser gives -/
inductive Res where
  | ok (v : PV) (toks : List Int)
  | fail (toks : List Int)
  | trap
  | fuel
  deriving DecidableEq

/-- lib/peg.cora:57-61 `sub-list?`. No clause for a non-empty target and an empty input. -/
def subList : List Int → List Int → Option (Option (List Int))
  | [], rem => some (some rem)
  | h1 :: t1, h2 :: t2 => if h1 = h2 then subList t1 t2 else some none
  | _ :: _, [] => none

mutual
/-- lib/peg.cora:50-178, the function made by each combinator. `<char> c` (50-55) and `<range> a b` (80-87) are
`sat` of the corresponding test, as `<satisify>` (72-77) is. In `@!` (132-136) the variable `v` is not bound: it
is a global nothing defines, so its value is the undefined object. -/
def run : Nat → Parser → List Int → Res
  | 0, _, _ => .fuel
  | n + 1, .sat p, toks =>
    match toks with
    | c :: rest => if p c then .ok (.tok c) rest else .fail toks
    | [] => .fail toks
  | n + 1, .eof, toks => if toks = [] then .ok .nil [] else .fail toks
  | n + 1, .string s, toks =>
    match subList s toks with
    | some (some rem) => .ok (.str s) rem
    | some none => .fail toks
    | none => .trap
  | n + 1, .seq p1 p2, toks =>
    match run n p1 toks with
    | .fail toks => .fail toks
    | .ok v1 toks1 =>
      match run n p2 toks1 with
      | .fail toks2 => .fail toks2
      | .ok v2 toks2 => .ok (.cons v1 v2) toks2
      | r => r
    | r => r
  | n + 1, .or p1 p2, toks =>
    match run n p1 toks with
    | .ok v1 toks => .ok v1 toks
    | .fail toks => run n p2 toks
    | r => r
  | n + 1, .not p, toks =>
    match run n p toks with
    | .ok _ toks1 => .fail toks1
    | .fail toks1 => .ok .undef toks1
    | r => r
  | n + 1, .plus p, toks =>
    match recur n p toks [] with
    | .inl (res, toks1) => if res.length > 0 then .ok (.ofList res.reverse) toks1 else .fail toks1
    | .inr r => r
  | n + 1, .star p, toks =>
    match recur n p toks [] with
    | .inl (res, toks1) => .ok (.ofList res.reverse) toks1
    | .inr r => r
  | n + 1, .opt p, toks =>
    match run n p toks with
    | .ok v toks1 => .ok v toks1
    | .fail toks1 => .ok .nil toks1
    | r => r
  | n + 1, .map p f, toks =>
    match run n p toks with
    | .ok v toks1 => .ok (f v) toks1
    | r => r
  | n + 1, .bind p f, toks =>
    match run n p toks with
    | .ok v toks1 => run n (f v) toks1
    | r => r

/-- lib/peg.cora:138-141 `recur-h`, up to the call of `k`: the results so far (last first) and the tokens; `inr`
is a trap or the end of the fuel -/
def recur : Nat → Parser → List Int → List PV → (List PV × List Int) ⊕ Res
  | 0, _, _, _ => .inr .fuel
  | n + 1, p, toks, res =>
    match run n p toks with
    | .ok v toks1 => recur n p toks1 (v :: res)
    | .fail toks1 => .inl (res, toks1)
    | r => .inr r
end

end Cora.Peg
