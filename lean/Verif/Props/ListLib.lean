import Verif.Model.ListLib
/-
C41: the list library.
-/
open Spec
namespace Cora.ListLib

variable {α σ β : Type}

theorem reverseH_eq (xs : List (V α)) (acc : List (V α)) :
    reverseH (V.ofList acc) (V.ofList xs) = V.ofList (xs.reverse ++ acc) := by
  induction xs generalizing acc with
  | nil => rfl
  | cons x xs ih =>
    have : reverseH (V.ofList acc) (V.ofList (x :: xs)) = reverseH (V.ofList (x :: acc)) (V.ofList xs) := rfl
    rw [this, ih]
    simp

/-- C41: `reverse` -/
theorem C41_reverse (xs : List (V α)) : reverse (V.ofList xs) = V.ofList xs.reverse := by
  have := reverseH_eq xs []
  rw [List.append_nil] at this
  exact this

theorem mapH_eq (f : V α → Eff σ (V α)) (xs acc : List (V α)) (s : σ) :
    mapH f (V.ofList acc) (V.ofList xs) s =
      (mapInOrder f xs s).map (fun r => (V.ofList (acc.reverse ++ r.1), r.2)) := by
  induction xs generalizing acc s with
  | nil =>
    have : mapH f (V.ofList acc) (V.ofList []) s = some (reverse (V.ofList acc), s) := rfl
    rw [this, C41_reverse]
    simp [mapInOrder]
  | cons x xs ih =>
    simp only [V.ofList, mapH, mapInOrder]
    cases hf : f x s with
    | none => rfl
    | some r =>
      obtain ⟨y, s'⟩ := r
      simp only []
      have := ih (y :: acc) s'
      simp only [V.ofList] at this
      rw [this]
      cases mapInOrder f xs s' with
      | none => rfl
      | some r => simp

/-- C41: `map` applies the function once per element from left to right, and returns the results in order;
if some application fails, the ones after it are not performed. -/
theorem C41_map (f : V α → Eff σ (V α)) (xs : List (V α)) (s : σ) :
    map f (V.ofList xs) s = (mapInOrder f xs s).map (fun r => (V.ofList r.1, r.2)) := by
  exact mapH_eq f xs [] s

theorem filterH_eq (p : V α → Eff σ Bool) (xs acc : List (V α)) (s : σ) :
    filterH p (V.ofList acc) (V.ofList xs) s =
      (filterInOrder p xs s).map (fun r => (V.ofList (acc.reverse ++ r.1), r.2)) := by
  induction xs generalizing acc s with
  | nil =>
    have : filterH p (V.ofList acc) (V.ofList []) s = some (reverse (V.ofList acc), s) := rfl
    rw [this, C41_reverse]
    simp [filterInOrder]
  | cons x xs ih =>
    simp only [V.ofList, filterH, filterInOrder]
    cases hf : p x s with
    | none => rfl
    | some r =>
      obtain ⟨b, s'⟩ := r
      cases b with
      | true =>
        simp only [if_true]
        have := ih (x :: acc) s'
        simp only [V.ofList] at this
        rw [this]
        cases filterInOrder p xs s' with
        | none => rfl
        | some r => simp
      | false =>
        simp only [Bool.false_eq_true, if_false]
        rw [ih acc s']
        cases filterInOrder p xs s' with
        | none => rfl
        | some r => simp

/-- C41: `filter` -/
theorem C41_filter (p : V α → Eff σ Bool) (xs : List (V α)) (s : σ) :
    filter p (V.ofList xs) s = (filterInOrder p xs s).map (fun r => (V.ofList r.1, r.2)) := by
  exact filterH_eq p xs [] s

/-- the specification of `filter` is the usual one when the predicate has no effects -/
theorem C41_filter_pure (p : V α → Bool) (xs : List (V α)) (s : σ) :
    filter (fun x s => some (p x, s)) (V.ofList xs) s = some (V.ofList (xs.filter p), s) := by
  rw [C41_filter]
  have : filterInOrder (fun x (s : σ) => some (p x, s)) xs s = some (xs.filter p, s) := by
    induction xs with
    | nil => rfl
    | cons x xs ih =>
      simp only [filterInOrder, ih, List.filter_cons]
  rw [this]; rfl

/-- and so is that of `map` -/
theorem C41_map_pure (f : V α → V α) (xs : List (V α)) (s : σ) :
    map (fun x s => some (f x, s)) (V.ofList xs) s = some (V.ofList (xs.map f), s) := by
  rw [C41_map]
  have : mapInOrder (fun x (s : σ) => some (f x, s)) xs s = some (xs.map f, s) := by
    induction xs with
    | nil => rfl
    | cons x xs ih => simp only [mapInOrder, ih, List.map_cons]
  rw [this]; rfl

/-- C41: `append`; the second argument may be anything -/
theorem C41_append (xs : List (V α)) (l : V α) :
    append (V.ofList xs) l = some (xs.foldr V.cons l) := by
  induction xs with
  | nil => rfl
  | cons x xs ih => simp only [V.ofList, append, ih, List.foldr_cons]; rfl

/-- in particular on two proper lists -/
theorem C41_append_lists (xs ys : List (V α)) :
    append (V.ofList xs) (V.ofList ys) = some (V.ofList (xs ++ ys)) := by
  rw [C41_append]
  congr 1
  induction xs with
  | nil => rfl
  | cons x xs ih => simp only [List.foldr_cons, ih, List.cons_append, V.ofList]

theorem lengthH_eq (xs : List (V α)) (i : Int) : lengthH i (V.ofList xs) = some (i + xs.length) := by
  induction xs generalizing i with
  | nil => simp [V.ofList, lengthH]
  | cons x xs ih => simp only [V.ofList, lengthH, ih]; simp; omega

/-- C41: `length` -/
theorem C41_length (xs : List (V α)) : length (V.ofList xs) = some (xs.length : Int) := by
  unfold length
  rw [lengthH_eq]; simp

/-- C41: `elem?` -/
theorem C41_elem [DecidableEq α] (x : V α) (xs : List (V α)) : elem x (V.ofList xs) = true ↔ x ∈ xs := by
  induction xs with
  | nil => simp [V.ofList, elem]
  | cons y xs ih =>
    simp only [V.ofList, elem, List.mem_cons]
    by_cases h : y = x
    · simp [h]
    · rw [if_neg h, ih]
      constructor
      · exact .inr
      · rintro (e | e)
        · exact absurd e.symm h
        · exact e

/-- C41: the library's `foldl` and `for-each` -/
theorem C41_foldl (f : β → V α → Eff σ β) (acc : β) (xs : List (V α)) (s : σ) :
    foldl f acc (V.ofList xs) s = foldInOrder f acc xs s := by
  induction xs generalizing acc s with
  | nil => rfl
  | cons x xs ih =>
    simp only [V.ofList, foldl, foldInOrder]
    cases f acc x s with
    | none => rfl
    | some r => exact ih _ _

theorem C41_forEach (f : V α → Eff σ β) (xs : List (V α)) (s : σ) :
    forEach f (V.ofList xs) s = (mapInOrder f xs s).map (fun r => ((), r.2)) := by
  induction xs generalizing s with
  | nil => rfl
  | cons x xs ih =>
    simp only [V.ofList, forEach, mapInOrder]
    cases f x s with
    | none => rfl
    | some r =>
      simp only [ih]
      cases mapInOrder f xs r.2 with
      | none => rfl
      | some r => rfl

/-- C41: `member` and `assq` -/
theorem C41_member [DecidableEq α] (x : V α) (xs : List (V α)) :
    member x (V.ofList xs) = some (decide (x ∈ xs)) := by
  induction xs with
  | nil => simp [V.ofList, member]
  | cons y xs ih =>
    simp only [V.ofList, member, List.mem_cons]
    by_cases h : x = y
    · simp [h]
    · simp [h, ih]

theorem C41_assq [DecidableEq α] (k : V α) (kvs : List (V α × V α)) :
    assq k (V.ofList (kvs.map fun e => .cons e.1 e.2)) =
      match kvs.find? (fun e => decide (k = e.1)) with
      | some e => some (.cons e.1 e.2)
      | none => some .nil := by
  induction kvs with
  | nil => rfl
  | cons e kvs ih =>
    simp only [List.map_cons, V.ofList, assq, List.find?_cons]
    by_cases h : k = e.1
    · simp [h]
    · simp only [h, if_false, decide_false]; exact ih

/-- a function that counts its calls and fails on the third argument -/
example : map (α := Nat) (σ := Nat) (fun x s => if x = .atom 3 then none else some (.cons x x, s + 1))
    (V.ofList [.atom 1, .atom 2]) 0 =
    some (V.ofList [.cons (.atom 1) (.atom 1), .cons (.atom 2) (.atom 2)], 2) := by decide

end Cora.ListLib
