import Verif.Model.Shuffle
import Verif.Props.Values
/-
C49: shuffle is a permutation.
-/
namespace Cora.Shuffle

variable {α : Type}

theorem split_perm (coin : Nat → Bool) (l a b : List α) (i : Nat) :
    ((randomSplit coin l a b i).1.1 ++ (randomSplit coin l a b i).1.2).Perm (l ++ (a ++ b)) := by
  induction l generalizing a b i with
  | nil => exact .refl _
  | cons h t ih =>
    simp only [randomSplit]
    split
    · refine (ih _ _ _).trans ?_
      simpa using List.perm_middle
    · refine (ih _ _ _).trans ?_
      rw [← List.append_assoc, ← List.append_assoc]
      exact List.perm_middle

theorem merge_perm (coin : Nat → Bool) (l1 l2 to : List α) (i : Nat) :
    (randomMerge coin l1 l2 to i).1.Perm (l1 ++ l2 ++ to) := by
  fun_induction randomMerge coin l1 l2 to i with
  | case1 => simp
  | case2 => simp
  | case3 to i a from1 b from2 hc ih =>
    refine ih.trans ?_
    exact List.perm_middle
  | case4 to i a from1 b from2 hc ih =>
    refine ih.trans ?_
    rw [List.append_assoc, List.append_assoc]
    refine List.Perm.append_left _ ?_
    exact List.perm_middle

theorem go_perm (coin : Nat → Bool) (n : Nat) (l : List α) (i : Nat) :
    ∃ r, shuffleH.go coin n l i = some r ∧ r.1.Perm l := by
  induction n generalizing l i with
  | zero => exact ⟨_, rfl, .refl _⟩
  | succ n ih =>
    obtain ⟨r, h1, h2⟩ := ih (randomMerge coin (randomSplit coin l [] [] i).1.1 (randomSplit coin l [] [] i).1.2 []
      (randomSplit coin l [] [] i).2).1 (randomMerge coin (randomSplit coin l [] [] i).1.1
      (randomSplit coin l [] [] i).1.2 [] (randomSplit coin l [] [] i).2).2
    refine ⟨r, h1, h2.trans ((merge_perm _ _ _ _ _).trans ?_)⟩
    simpa using split_perm coin l [] [] i

/-- C49: whatever the random numbers, `shuffle` returns (it does not trap, and its round counter reaches 0) a
list with the same elements, each as often as before. -/
theorem C49_permutation (coin : Nat → Bool) (arr : List α) (i : Nat) (h : 1 + arr.length ≤ 2 ^ 53) :
    ∃ r j, shuffle coin arr i = some (r, j) ∧ r.Perm arr := by
  obtain ⟨x, hx, hf, -⟩ := C02_storage_exact (1 + arr.length : Int) (by omega)
  have h2 : makeNumber 2 = some 0x4000000000000000#64 := by decide +kernel
  have hfix : isfixnum x = true := by
    unfold fixnum at hf
    split at hf
    · rename_i hc; simp at hc; exact hc.1
    · simp at hf
  have hq : ((x / 0x4000000000000000#64).toInt).natAbs ≤ 2 ^ 53 ∧ 0 ≤ (x / 0x4000000000000000#64).toInt := by
    have : (x / 0x4000000000000000#64).toNat < 4 := by
      rw [BitVec.toNat_udiv]
      have := x.isLt
      rw [show (0x4000000000000000#64).toNat = 4611686018427387904 by decide]
      omega
    rw [BitVec.toInt_eq_toNat_of_lt (by omega)]
    omega
  obtain ⟨o, ho, hg, -⟩ := C02_storage_exact _ hq.1
  have hd : primDiv x 0x4000000000000000#64 = some o := by
    unfold primDiv
    rw [hfix, show isfixnum 0x4000000000000000#64 = true by decide +kernel]
    rw [if_pos (by decide), if_neg (by decide)]
    exact ho
  obtain ⟨r, h1, h2'⟩ := go_perm coin (x / 0x4000000000000000#64).toInt.toNat arr i
  refine ⟨r.1, r.2, ?_, h2'⟩
  unfold shuffle
  simp only [hx, h2, hd, hg, Option.bind_eq_bind, Option.bind_some]
  unfold shuffleH
  rw [if_neg (by omega)]
  exact h1

/-- one round can really reorder a list -/
example : ∃ r, shuffleH (fun i => i % 2 == 0) [1, 2, 3, 4, 5] 1 0 = some r ∧ r.1 = [3, 1, 2, 5, 4] := by
  refine ⟨_, rfl, ?_⟩
  simp [randomSplit, randomMerge]

/-- C49_permutation: a list of five -/
example : ∃ r j, shuffle (fun i => i % 2 == 0) [1, 2, 3, 4, 5] 0 = some (r, j) ∧ r.Perm [1, 2, 3, 4, 5] :=
  C49_permutation _ _ _ (by decide)

end Cora.Shuffle
