import Verif.Model.NaNBox
/-
Model of `shuffle` in /repo/lib/cml.cora. The random numbers are any stream: `coin i` tells whether the `i`-th
call of `(randN 2)` returns 0 (lib/rand.c:4-9: the remainder of `rand()` by 2). The stream position is threaded
through. `none` is a trap in the arithmetic.
-/
namespace Cora.Shuffle

variable {α : Type}

/-- lib/cml.cora:123-127 `random-split` -/
def randomSplit (coin : Nat → Bool) : List α → List α → List α → Nat → (List α × List α) × Nat
  | [], to1, to2, i => ((to1, to2), i)
  | hd :: tl, to1, to2, i =>
    if coin i then randomSplit coin tl (hd :: to1) to2 (i + 1)
    else randomSplit coin tl to1 (hd :: to2) (i + 1)

/-- lib/cml.cora:129-134 `random-merge` (`append` is C41's) -/
def randomMerge (coin : Nat → Bool) : List α → List α → List α → Nat → List α × Nat
  | [], from2, to, i => (from2 ++ to, i)
  | a :: from1, [], to, i => ((a :: from1) ++ to, i)
  | a :: from1, b :: from2, to, i =>
    if coin i then randomMerge coin from1 (b :: from2) (a :: to) (i + 1)
    else randomMerge coin (a :: from1) from2 (b :: to) (i + 1)
termination_by l1 l2 => l1.length + l2.length

/-- lib/cml.cora:136-140 `shuffle-h`; the round counter is an integer, and one that is not positive and not zero
would be counted down for ever, which is `none` here -/
def shuffleH (coin : Nat → Bool) (l : List α) (n : Int) (i : Nat) : Option (List α × Nat) :=
  if n < 0 then none
  else go n.toNat l i
where
  /-- the countdown -/
  go : Nat → List α → Nat → Option (List α × Nat)
    | 0, l, i => some (l, i)
    | n + 1, l, i =>
      let t := randomSplit coin l [] [] i
      let r := randomMerge coin t.1.1 t.1.2 [] t.2
      go n r.1 r.2

/-- lib/cml.cora:142-143 `shuffle`: the number of rounds is `(/ (+ 1 (length arr)) 2)`, with the division of
C03 -/
def shuffle (coin : Nat → Bool) (arr : List α) (i : Nat) : Option (List α × Nat) := do
  let x ← makeNumber (1 + arr.length)
  let two ← makeNumber 2
  let q ← primDiv x two
  let n ← fixnum q
  shuffleH coin arr n i

end Cora.Shuffle
