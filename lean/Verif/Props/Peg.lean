import Verif.Model.Peg
/-
C51: the parser combinators.
-/
open Spec
namespace Cora.Peg

theorem subList_ok {s i j : List Int} (h : subList s i = some (some j)) : i = s ++ j := by
  induction s generalizing i with
  | nil => simpa [subList] using h
  | cons a s ih =>
    cases i with
    | nil => simp [subList] at h
    | cons b i =>
      simp only [subList] at h
      split at h
      · rename_i hab; subst hab; rw [ih h]; rfl
      · simp at h

theorem subList_fail {s i : List Int} (h : subList s i = some none) : ¬ s <+: i := by
  induction s generalizing i with
  | nil => simp [subList] at h
  | cons a s ih =>
    cases i with
    | nil => simp [subList] at h
    | cons b i =>
      simp only [subList] at h
      split at h
      · rename_i hab; subst hab
        intro hp
        exact ih h (List.cons_prefix_cons.mp hp).2
      · rename_i hab
        intro hp
        exact hab (List.cons_prefix_cons.mp hp).1

theorem subList_prefix (s i : List Int) : subList s (s ++ i) = some (some i) := by
  induction s with
  | nil => rfl
  | cons a s ih => simp [subList, ih]

/-- the result, when there is one, leaves a suffix of the input -/
def Suffix (i : List Int) : Res → Prop
  | .ok _ j => j <:+ i
  | .fail j => j <:+ i
  | _ => True

theorem Suffix.trans {i j : List Int} {r : Res} (h : j <:+ i) (hr : Suffix j r) : Suffix i r := by
  cases r with
  | ok v k => exact List.IsSuffix.trans hr h
  | fail k => exact List.IsSuffix.trans hr h
  | trap => trivial
  | fuel => trivial

theorem run_suffix (n : Nat) : (∀ p i, Suffix i (run n p i)) ∧
    (∀ p i res, match recur n p i res with
      | .inl (_, j) => j <:+ i
      | .inr r => Suffix i r) := by
  induction n with
  | zero => exact ⟨fun p i => by simp [run, Suffix], fun p i res => by simp [recur, Suffix]⟩
  | succ n ih =>
    obtain ⟨ih1, ih2⟩ := ih
    constructor
    · intro p i
      cases p with
      | sat p =>
        simp only [run]
        cases i with
        | nil => exact List.suffix_refl _
        | cons c i =>
          simp only []
          split
          · exact List.suffix_cons _ _
          · exact List.suffix_refl _
      | eof =>
        simp only [run]
        split
        · rename_i h; subst h; exact List.suffix_refl _
        · exact List.suffix_refl _
      | string s =>
        simp only [run]
        cases h : subList s i with
        | none => trivial
        | some o =>
          cases o with
          | none => exact List.suffix_refl _
          | some rem => rw [subList_ok h]; exact List.suffix_append _ _
      | seq p q =>
        simp only [run]
        have h1 := ih1 p i
        cases hp : run n p i with
        | ok v j =>
          rw [hp] at h1
          simp only []
          have h2 := ih1 q j
          cases hq : run n q j with
          | ok w k => rw [hq] at h2; exact List.IsSuffix.trans h2 h1
          | fail k => rw [hq] at h2; exact List.IsSuffix.trans h2 h1
          | trap => trivial
          | fuel => trivial
        | fail j => rw [hp] at h1; exact h1
        | trap => trivial
        | fuel => trivial
      | or p q =>
        simp only [run]
        have h1 := ih1 p i
        cases hp : run n p i with
        | ok v j => rw [hp] at h1; exact h1
        | fail j => rw [hp] at h1; exact Suffix.trans h1 (ih1 q j)
        | trap => trivial
        | fuel => trivial
      | not p =>
        simp only [run]
        have h1 := ih1 p i
        cases hp : run n p i with
        | ok v j => rw [hp] at h1; exact h1
        | fail j => rw [hp] at h1; exact h1
        | trap => trivial
        | fuel => trivial
      | plus p =>
        simp only [run]
        have h1 := ih2 p i []
        cases hp : recur n p i [] with
        | inl x =>
          rw [hp] at h1
          obtain ⟨l, j⟩ := x
          simp only [] at h1 ⊢
          split
          · exact h1
          · exact h1
        | inr r => rw [hp] at h1; exact h1
      | star p =>
        simp only [run]
        have h1 := ih2 p i []
        cases hp : recur n p i [] with
        | inl x => rw [hp] at h1; exact h1
        | inr r => rw [hp] at h1; exact h1
      | opt p =>
        simp only [run]
        have h1 := ih1 p i
        cases hp : run n p i with
        | ok v j => rw [hp] at h1; exact h1
        | fail j => rw [hp] at h1; exact h1
        | trap => trivial
        | fuel => trivial
      | map p f =>
        simp only [run]
        have h1 := ih1 p i
        cases hp : run n p i with
        | ok v j => rw [hp] at h1; exact h1
        | fail j => rw [hp] at h1; exact h1
        | trap => trivial
        | fuel => trivial
      | bind p f =>
        simp only [run]
        have h1 := ih1 p i
        cases hp : run n p i with
        | ok v j => rw [hp] at h1; exact Suffix.trans h1 (ih1 (f v) j)
        | fail j => rw [hp] at h1; exact h1
        | trap => trivial
        | fuel => trivial
    · intro p i res
      simp only [recur]
      have h1 := ih1 p i
      cases hp : run n p i with
      | ok v j =>
        rw [hp] at h1
        simp only []
        have h2 := ih2 p j (v :: res)
        cases hr : recur n p j (v :: res) with
        | inl x => rw [hr] at h2; exact List.IsSuffix.trans h2 h1
        | inr r => rw [hr] at h2; exact Suffix.trans h1 h2
      | fail j => rw [hp] at h1; exact h1
      | trap => trivial
      | fuel => trivial

/-- C51 (a): a parser that succeeds has consumed a prefix of its input: what it leaves is the input without that
prefix. Holds for every parser built from the combinators. -/
theorem C51_consumes_a_prefix_partial (n : Nat) (p : Parser) (i : List Int) (v : PV) (j : List Int)
    (h : run n p i = .ok v j) : ∃ pre, i = pre ++ j := by
  have := (run_suffix n).1 p i
  rw [h] at this
  obtain ⟨pre, hp⟩ := this
  exact ⟨pre, hp.symm⟩

/-- a parser that, when it fails, reports the input it was given as the rest -/
def InPlace (p : Parser) : Prop := ∀ n i j, run n p i = .fail j → j = i

/-- wherever the code continues after a failure, the failing parser is `InPlace` -/
def Good : Parser → Prop
  | .sat _ => True
  | .eof => True
  | .string _ => True
  | .seq p q => Good p ∧ Good q
  | .or p q => InPlace p ∧ Good p ∧ Good q
  | .not p => InPlace p ∧ Good p
  | .plus p => InPlace p ∧ Good p
  | .star p => InPlace p ∧ Good p
  | .opt p => InPlace p ∧ Good p
  | .map p _ => Good p
  | .bind p f => Good p ∧ ∀ v, Good (f v)

theorem inPlace_sat (q : Int → Bool) : InPlace (.sat q) := by
  intro n i j h
  cases n with
  | zero => simp [run] at h
  | succ n =>
    simp only [run] at h
    cases i with
    | nil => simpa using h.symm
    | cons c i =>
      simp only [] at h
      split at h
      · cases h
      · simpa using h.symm

theorem inPlace_string (s : List Int) : InPlace (.string s) := by
  intro n i j h
  cases n with
  | zero => simp [run] at h
  | succ n =>
    simp only [run] at h
    split at h
    · cases h
    · simpa using h.symm
    · cases h

theorem inPlace_star (p : Parser) : InPlace (.star p) := by
  intro n i j h
  cases n with
  | zero => simp [run] at h
  | succ n =>
    simp only [run] at h
    cases hr : recur n p i [] with
    | inl x => rw [hr] at h; cases h
    | inr r =>
      rw [hr] at h
      -- `recur` never ends in a failure
      have key : ∀ n i res r, recur n p i res = .inr r → r = .trap ∨ r = .fuel := by
        intro n
        induction n with
        | zero => intro i res r h; simp [recur] at h; exact .inr h.symm
        | succ n ih =>
          intro i res r h
          simp only [recur] at h
          cases hp : run n p i with
          | ok v k => rw [hp] at h; exact ih _ _ _ h
          | fail k => rw [hp] at h; cases h
          | trap => rw [hp] at h; left; simpa using h.symm
          | fuel => rw [hp] at h; right; simpa using h.symm
      simp only [] at h
      rcases key n i [] r hr with e | e <;> rw [e] at h <;> cases h

theorem inPlace_or {p q : Parser} (hp : InPlace p) (hq : InPlace q) : InPlace (.or p q) := by
  intro n i j h
  cases n with
  | zero => simp [run] at h
  | succ n =>
    simp only [run] at h
    cases h1 : run n p i with
    | ok v k => rw [h1] at h; cases h
    | fail k =>
      rw [h1] at h
      have e := hp n i k h1
      subst e
      exact hq n _ j h
    | trap => rw [h1] at h; cases h
    | fuel => rw [h1] at h; cases h

theorem inPlace_map {p : Parser} (hp : InPlace p) (f : PV → PV) : InPlace (.map p f) := by
  intro n i j h
  cases n with
  | zero => simp [run] at h
  | succ n =>
    simp only [run] at h
    cases h1 : run n p i with
    | ok v k => rw [h1] at h; cases h
    | fail k => rw [h1] at h; cases h; exact hp n i _ h1
    | trap => rw [h1] at h; cases h
    | fuel => rw [h1] at h; cases h

/-- agreement of a result with the reference semantics -/
def Sound (p : Parser) (i : List Int) : Res → Prop
  | .ok v j => Peg p i (some (v, j))
  | .fail _ => Peg p i none
  | _ => True

theorem run_sound (n : Nat) : (∀ p i, Good p → Sound p i (run n p i)) ∧
    (∀ p i res, InPlace p → Good p → match recur n p i res with
      | .inl (l, j) => ∃ l', l = l'.reverse ++ res ∧ PegMany p i l' j
      | .inr r => r = .trap ∨ r = .fuel) := by
  induction n with
  | zero => exact ⟨fun p i _ => by simp [run, Sound], fun p i res _ _ => by simp [recur]⟩
  | succ n ih =>
    obtain ⟨ih1, ih2⟩ := ih
    constructor
    · intro p i hg
      cases p with
      | sat p =>
        simp only [run]
        cases i with
        | nil => exact .satEnd
        | cons c i =>
          simp only []
          split
          · rename_i h; exact .satOk h
          · rename_i h; exact .satFail (by simpa using h)
      | eof =>
        simp only [run]
        cases i with
        | nil => exact .eofOk
        | cons c i => exact .eofFail
      | string s =>
        simp only [run]
        cases h : subList s i with
        | none => trivial
        | some o =>
          cases o with
          | none => exact .strFail (subList_fail h)
          | some rem => rw [subList_ok h]; exact .strOk
      | seq p q =>
        simp only [run]
        have h1 := ih1 p i hg.1
        cases hp : run n p i with
        | ok v j =>
          rw [hp] at h1
          simp only []
          have h2 := ih1 q j hg.2
          cases hq : run n q j with
          | ok w k => rw [hq] at h2; exact .seqOk h1 h2
          | fail k => rw [hq] at h2; exact .seqFail2 h1 h2
          | trap => trivial
          | fuel => trivial
        | fail j => rw [hp] at h1; exact .seqFail h1
        | trap => trivial
        | fuel => trivial
      | or p q =>
        simp only [run]
        have h1 := ih1 p i hg.2.1
        cases hp : run n p i with
        | ok v j => rw [hp] at h1; exact .orLeft h1
        | fail j =>
          rw [hp] at h1
          have e := hg.1 n i j hp
          subst e
          have h2 := ih1 q j hg.2.2
          simp only []
          cases hq : run n q j with
          | ok w k => rw [hq] at h2; exact .orRight h1 h2
          | fail k => rw [hq] at h2; exact .orRight h1 h2
          | trap => trivial
          | fuel => trivial
        | trap => trivial
        | fuel => trivial
      | not p =>
        simp only [run]
        have h1 := ih1 p i hg.2
        cases hp : run n p i with
        | ok v j => rw [hp] at h1; exact .notFail h1
        | fail j =>
          rw [hp] at h1
          have e := hg.1 n i j hp
          subst e
          exact .notOk h1
        | trap => trivial
        | fuel => trivial
      | plus p =>
        simp only [run]
        have h1 := ih2 p i [] hg.1 hg.2
        cases hp : recur n p i [] with
        | inl x =>
          rw [hp] at h1
          obtain ⟨l, j⟩ := x
          obtain ⟨l', e, hm⟩ := h1
          rw [List.append_nil] at e
          subst e
          simp only [List.reverse_reverse]
          cases l' with
          | nil =>
            cases hm with
            | done h => exact .plusFail h
          | cons v l' => simp; exact .plusOk hm
        | inr r => rw [hp] at h1; rcases h1 with h1 | h1 <;> rw [h1] <;> trivial
      | star p =>
        simp only [run]
        have h1 := ih2 p i [] hg.1 hg.2
        cases hp : recur n p i [] with
        | inl x =>
          rw [hp] at h1
          obtain ⟨l, j⟩ := x
          obtain ⟨l', e, hm⟩ := h1
          rw [List.append_nil] at e
          subst e
          simp only [List.reverse_reverse]
          exact .star hm
        | inr r => rw [hp] at h1; rcases h1 with h1 | h1 <;> rw [h1] <;> trivial
      | opt p =>
        simp only [run]
        have h1 := ih1 p i hg.2
        cases hp : run n p i with
        | ok v j => rw [hp] at h1; exact .optOk h1
        | fail j =>
          rw [hp] at h1
          have e := hg.1 n i j hp
          subst e
          exact .optNone h1
        | trap => trivial
        | fuel => trivial
      | map p f =>
        simp only [run]
        have h1 := ih1 p i hg
        cases hp : run n p i with
        | ok v j => rw [hp] at h1; exact .mapOk h1
        | fail j => rw [hp] at h1; exact .mapFail h1
        | trap => trivial
        | fuel => trivial
      | bind p f =>
        simp only [run]
        have h1 := ih1 p i hg.1
        cases hp : run n p i with
        | ok v j =>
          rw [hp] at h1
          have h2 := ih1 (f v) j (hg.2 v)
          simp only []
          cases hq : run n (f v) j with
          | ok w k => rw [hq] at h2; exact .bindOk h1 h2
          | fail k => rw [hq] at h2; exact .bindOk h1 h2
          | trap => trivial
          | fuel => trivial
        | fail j => rw [hp] at h1; exact .bindFail h1
        | trap => trivial
        | fuel => trivial
    · intro p i res hip hg
      simp only [recur]
      have h1 := ih1 p i hg
      cases hp : run n p i with
      | ok v j =>
        rw [hp] at h1
        simp only []
        have h2 := ih2 p j (v :: res) hip hg
        cases hr : recur n p j (v :: res) with
        | inl x =>
          rw [hr] at h2
          obtain ⟨l', e, hm⟩ := h2
          exact ⟨v :: l', by rw [e]; simp, .more h1 hm⟩
        | inr r => rw [hr] at h2; exact h2
      | fail j =>
        rw [hp] at h1
        have e := hip n i j hp
        subst e
        exact ⟨[], by simp, .done h1⟩
      | trap => exact .inl rfl
      | fuel => exact .inr rfl

/-- C51 (b), the part that holds: if every parser after whose failure another one is tried (the first alternative
of `@or`, the body of `@!`, `@*`, `@+`, `@?`) reports its own input when it fails, then every answer is the one
PEG semantics gives: ordered choice on the same input, greedy repetition, nothing lost. Missing: see the
counterexamples below. -/
theorem C51_peg_semantics_partial (n : Nat) (p : Parser) (i : List Int) (hg : Good p) :
    (∀ v j, run n p i = .ok v j → Peg p i (some (v, j))) ∧ (∀ j, run n p i = .fail j → Peg p i none) := by
  have := (run_sound n).1 p i hg
  constructor
  · intro v j h; rw [h] at this; exact this
  · intro j h; rw [h] at this; exact this

theorem run_mono (n : Nat) : (∀ p i, run n p i ≠ .fuel → run (n + 1) p i = run n p i) ∧
    (∀ p i res, recur n p i res ≠ .inr .fuel → recur (n + 1) p i res = recur n p i res) := by
  induction n with
  | zero => exact ⟨fun p i h => absurd (by simp [run]) h, fun p i res h => absurd (by simp [recur]) h⟩
  | succ n ih =>
    obtain ⟨ih1, ih2⟩ := ih
    constructor
    · intro p i h
      cases p with
      | sat p => rfl
      | eof => rfl
      | string s => rfl
      | seq p q =>
        simp only [run] at h ⊢
        have h1 := ih1 p i
        cases hp : run n p i with
        | ok v j =>
          rw [hp] at h h1
          rw [h1 (by simp)]
          simp only [] at h ⊢
          have h2 := ih1 q j
          cases hq : run n q j with
          | fuel => rw [hq] at h; simp at h
          | ok w k => rw [hq] at h2; rw [h2 (by simp)]
          | fail k => rw [hq] at h2; rw [h2 (by simp)]
          | trap => rw [hq] at h2; rw [h2 (by simp)]
        | fail j => rw [hp] at h1; rw [h1 (by simp)]
        | trap => rw [hp] at h1; rw [h1 (by simp)]
        | fuel => rw [hp] at h; simp at h
      | or p q =>
        simp only [run] at h ⊢
        have h1 := ih1 p i
        cases hp : run n p i with
        | fail j =>
          rw [hp] at h h1
          rw [h1 (by simp)]
          exact ih1 q j h
        | ok v j => rw [hp] at h1; rw [h1 (by simp)]
        | trap => rw [hp] at h1; rw [h1 (by simp)]
        | fuel => rw [hp] at h; simp at h
      | not p =>
        simp only [run] at h ⊢
        rw [ih1 p i (by rintro e; rw [e] at h; simp at h)]
      | plus p =>
        simp only [run] at h ⊢
        rw [ih2 p i [] (by rintro e; rw [e] at h; simp at h)]
      | star p =>
        simp only [run] at h ⊢
        rw [ih2 p i [] (by rintro e; rw [e] at h; simp at h)]
      | opt p =>
        simp only [run] at h ⊢
        rw [ih1 p i (by rintro e; rw [e] at h; simp at h)]
      | map p f =>
        simp only [run] at h ⊢
        rw [ih1 p i (by rintro e; rw [e] at h; simp at h)]
      | bind p f =>
        simp only [run] at h ⊢
        have h1 := ih1 p i
        cases hp : run n p i with
        | ok v j =>
          rw [hp] at h h1
          rw [h1 (by simp)]
          exact ih1 (f v) j h
        | fail j => rw [hp] at h1; rw [h1 (by simp)]
        | trap => rw [hp] at h1; rw [h1 (by simp)]
        | fuel => rw [hp] at h; simp at h
    · intro p i res h
      rw [recur] at h
      conv => lhs; rw [recur]
      conv => rhs; rw [recur]
      have h1 := ih1 p i
      cases hp : run n p i with
      | ok v j =>
        rw [hp] at h h1
        rw [h1 (by simp)]
        exact ih2 p j (v :: res) h
      | fail j => rw [hp] at h1; rw [h1 (by simp)]
      | trap => rw [hp] at h1; rw [h1 (by simp)]
      | fuel => rw [hp] at h; simp at h

theorem run_le {n m : Nat} (hnm : n ≤ m) (p : Parser) (i : List Int) (h : run n p i ≠ .fuel) :
    run m p i = run n p i := by
  induction hnm with
  | refl => rfl
  | @step m _ ih => rw [(run_mono m).1 p i (by rw [ih]; exact h), ih]

theorem recur_le {n m : Nat} (hnm : n ≤ m) (p : Parser) (i : List Int) (res : List PV)
    (h : recur n p i res ≠ .inr .fuel) : recur m p i res = recur n p i res := by
  induction hnm with
  | refl => rfl
  | @step m _ ih => rw [(run_mono m).2 p i res (by rw [ih]; exact h), ih]

/-- the answer PEG semantics wants, or a trap -/
def Answers (r : Option (PV × List Int)) (x : Res) : Prop :=
  x = .trap ∨ (∃ v j, r = some (v, j) ∧ x = .ok v j) ∨ (r = none ∧ ∃ j, x = .fail j)

theorem Answers.ne {r : Option (PV × List Int)} {x : Res} (h : Answers r x) : x ≠ .fuel := by
  rcases h with h | ⟨v, j, -, h⟩ | ⟨-, j, h⟩ <;> rw [h] <;> simp

mutual
theorem complete {p : Parser} {i : List Int} {r : Option (PV × List Int)} (h : Peg p i r) (hg : Good p) :
    ∃ n, Answers r (run n p i) := by
  match h with
  | .satOk hc => exact ⟨1, .inr (.inl ⟨_, _, rfl, by simp [run, hc]⟩)⟩
  | .satFail hc => exact ⟨1, .inr (.inr ⟨rfl, _, by simp [run, hc]; rfl⟩)⟩
  | .satEnd => exact ⟨1, .inr (.inr ⟨rfl, _, rfl⟩)⟩
  | .eofOk => exact ⟨1, .inr (.inl ⟨_, _, rfl, rfl⟩)⟩
  | .eofFail => exact ⟨1, .inr (.inr ⟨rfl, _, rfl⟩)⟩
  | .strOk => exact ⟨1, .inr (.inl ⟨_, _, rfl, by simp [run, subList_prefix]⟩)⟩
  | .strFail hn => 
    refine ⟨1, ?_⟩
    simp only [run]
    cases h : subList _ _ with
    | none => exact .inl rfl
    | some o =>
      cases o with
      | none => exact .inr (.inr ⟨rfl, _, rfl⟩)
      | some rem =>
        rw [subList_ok h] at hn
        exact absurd (List.prefix_append _ _) hn
  | .seqFail (p := p) (q := q) (i := i) h1 =>
    obtain ⟨n, a⟩ := complete h1 hg.1
    refine ⟨n + 1, ?_⟩
    simp only [run]
    rcases a with a | ⟨v, j, e, -⟩ | ⟨-, j, a⟩
    · rw [a]; exact .inl rfl
    · simp at e
    · rw [a]; exact .inr (.inr ⟨rfl, j, rfl⟩)
  | .seqFail2 (p := p) (q := q) (i := i) (j := j) h1 h2 =>
    obtain ⟨n, a⟩ := complete h1 hg.1
    obtain ⟨m, b⟩ := complete h2 hg.2
    refine ⟨max n m + 1, ?_⟩
    simp only [run]
    rw [run_le (Nat.le_max_left n m) _ _ a.ne]
    rcases a with a | ⟨v', j', e, a⟩ | ⟨e, _⟩
    · rw [a]; exact .inl rfl
    · simp at e; obtain ⟨rfl, rfl⟩ := e
      rw [a]
      simp only []
      rw [run_le (Nat.le_max_right n m) _ _ b.ne]
      rcases b with b | ⟨w, k, e, b⟩ | ⟨-, k, b⟩
      · rw [b]; exact .inl rfl
      · simp at e
      · rw [b]; exact .inr (.inr ⟨rfl, k, rfl⟩)
    · simp at e
  | .seqOk (p := p) (q := q) (i := i) (j := j) h1 h2 =>
    obtain ⟨n, a⟩ := complete h1 hg.1
    obtain ⟨m, b⟩ := complete h2 hg.2
    refine ⟨max n m + 1, ?_⟩
    simp only [run]
    rw [run_le (Nat.le_max_left n m) _ _ a.ne]
    rcases a with a | ⟨v', j', e, a⟩ | ⟨e, _⟩
    · rw [a]; exact .inl rfl
    · simp at e; obtain ⟨rfl, rfl⟩ := e
      rw [a]
      simp only []
      rw [run_le (Nat.le_max_right n m) _ _ b.ne]
      rcases b with b | ⟨w, k, e, b⟩ | ⟨e, _⟩
      · rw [b]; exact .inl rfl
      · simp at e; obtain ⟨rfl, rfl⟩ := e
        rw [b]; exact .inr (.inl ⟨_, _, rfl, rfl⟩)
      · simp at e
    · simp at e
  | .orLeft h1 =>
    obtain ⟨n, a⟩ := complete h1 hg.2.1
    refine ⟨n + 1, ?_⟩
    simp only [run]
    rcases a with a | ⟨v, j, e, a⟩ | ⟨e, _⟩
    · rw [a]; exact .inl rfl
    · rw [a]; exact .inr (.inl ⟨v, j, e, rfl⟩)
    · simp at e
  | .orRight (i := i) h1 h2 =>
    obtain ⟨n, a⟩ := complete h1 hg.2.1
    obtain ⟨m, b⟩ := complete h2 hg.2.2
    refine ⟨max n m + 1, ?_⟩
    simp only [run]
    rw [run_le (Nat.le_max_left n m) _ _ a.ne]
    rcases a with a | ⟨v, j, e, a⟩ | ⟨-, j, a⟩
    · rw [a]; exact .inl rfl
    · simp at e
    · have e := hg.1 n i j a
      rw [a, e]
      simp only []
      rw [run_le (Nat.le_max_right n m) _ _ b.ne]
      exact b
  | .notOk (i := i) h1 =>
    obtain ⟨n, a⟩ := complete h1 hg.2
    refine ⟨n + 1, ?_⟩
    simp only [run]
    rcases a with a | ⟨v, j, e, a⟩ | ⟨-, j, a⟩
    · rw [a]; exact .inl rfl
    · simp at e
    · have e := hg.1 n i j a
      rw [a, e]; exact .inr (.inl ⟨_, _, rfl, rfl⟩)
  | .notFail h1 =>
    obtain ⟨n, a⟩ := complete h1 hg.2
    refine ⟨n + 1, ?_⟩
    simp only [run]
    rcases a with a | ⟨v, j, e, a⟩ | ⟨e, _⟩
    · rw [a]; exact .inl rfl
    · rw [a]; exact .inr (.inr ⟨rfl, _, rfl⟩)
    · simp at e
  | .star h1 =>
    obtain ⟨n, a⟩ := completeMany h1 hg.1 hg.2 []
    refine ⟨n + 1, ?_⟩
    simp only [run]
    rcases a with a | a
    · rw [a]; exact .inl rfl
    · rw [a]; exact .inr (.inl ⟨_, _, rfl, by simp⟩)
  | .plusOk h1 =>
    obtain ⟨n, a⟩ := completeMany h1 hg.1 hg.2 []
    refine ⟨n + 1, ?_⟩
    simp only [run]
    rcases a with a | a
    · rw [a]; exact .inl rfl
    · rw [a]; exact .inr (.inl ⟨_, _, rfl, by simp⟩)
  | .plusFail (i := i) h1 =>
    obtain ⟨n, a⟩ := complete h1 hg.2
    refine ⟨n + 2, ?_⟩
    simp only [run, recur]
    rcases a with a | ⟨v, j, e, a⟩ | ⟨-, j, a⟩
    · rw [a]; exact .inl rfl
    · simp at e
    · rw [a]; exact .inr (.inr ⟨rfl, j, by simp⟩)
  | .optOk h1 =>
    obtain ⟨n, a⟩ := complete h1 hg.2
    refine ⟨n + 1, ?_⟩
    simp only [run]
    rcases a with a | ⟨v, j, e, a⟩ | ⟨e, _⟩
    · rw [a]; exact .inl rfl
    · rw [a]; exact .inr (.inl ⟨v, j, e, rfl⟩)
    · simp at e
  | .optNone (i := i) h1 =>
    obtain ⟨n, a⟩ := complete h1 hg.2
    refine ⟨n + 1, ?_⟩
    simp only [run]
    rcases a with a | ⟨v, j, e, a⟩ | ⟨-, j, a⟩
    · rw [a]; exact .inl rfl
    · simp at e
    · have e := hg.1 n i j a
      rw [a, e]; exact .inr (.inl ⟨_, _, rfl, rfl⟩)
  | .mapOk h1 =>
    obtain ⟨n, a⟩ := complete h1 hg
    refine ⟨n + 1, ?_⟩
    simp only [run]
    rcases a with a | ⟨v, j, e, a⟩ | ⟨e, _⟩
    · rw [a]; exact .inl rfl
    · simp at e; obtain ⟨rfl, rfl⟩ := e
      rw [a]; exact .inr (.inl ⟨_, _, rfl, rfl⟩)
    · simp at e
  | .mapFail h1 =>
    obtain ⟨n, a⟩ := complete h1 hg
    refine ⟨n + 1, ?_⟩
    simp only [run]
    rcases a with a | ⟨v, j, e, a⟩ | ⟨-, j, a⟩
    · rw [a]; exact .inl rfl
    · simp at e
    · rw [a]; exact .inr (.inr ⟨rfl, j, rfl⟩)
  | .bindOk (v := v) h1 h2 =>
    obtain ⟨n, a⟩ := complete h1 hg.1
    obtain ⟨m, b⟩ := complete h2 (hg.2 v)
    refine ⟨max n m + 1, ?_⟩
    simp only [run]
    rw [run_le (Nat.le_max_left n m) _ _ a.ne]
    rcases a with a | ⟨v', j', e, a⟩ | ⟨e, _⟩
    · rw [a]; exact .inl rfl
    · simp at e; obtain ⟨rfl, rfl⟩ := e
      rw [a]
      simp only []
      rw [run_le (Nat.le_max_right n m) _ _ b.ne]
      exact b
    · simp at e
  | .bindFail h1 =>
    obtain ⟨n, a⟩ := complete h1 hg.1
    refine ⟨n + 1, ?_⟩
    simp only [run]
    rcases a with a | ⟨v, j, e, a⟩ | ⟨-, j, a⟩
    · rw [a]; exact .inl rfl
    · simp at e
    · rw [a]; exact .inr (.inr ⟨rfl, j, rfl⟩)

theorem completeMany {p : Parser} {i : List Int} {l : List PV} {k : List Int} (h : PegMany p i l k)
    (hip : InPlace p) (hg : Good p) (res : List PV) :
    ∃ n, recur n p i res = .inr .trap ∨ recur n p i res = .inl (l.reverse ++ res, k) := by
  match h with
  | .done (i := i) h1 =>
    obtain ⟨n, a⟩ := complete h1 hg
    refine ⟨n + 1, ?_⟩
    simp only [recur]
    rcases a with a | ⟨v, j, e, a⟩ | ⟨-, j, a⟩
    · rw [a]; exact .inl rfl
    · simp at e
    · have e := hip n i j a
      rw [a, e]; exact .inr rfl
  | .more (v := v) (j := j) h1 h2 =>
    obtain ⟨n, a⟩ := complete h1 hg
    obtain ⟨m, b⟩ := completeMany h2 hip hg (v :: res)
    refine ⟨max n m + 1, ?_⟩
    simp only [recur]
    rw [run_le (Nat.le_max_left n m) _ _ a.ne]
    rcases a with a | ⟨v', j', e, a⟩ | ⟨e, _⟩
    · rw [a]; exact .inl rfl
    · simp at e; obtain ⟨rfl, rfl⟩ := e
      rw [a]
      simp only []
      rw [recur_le (Nat.le_max_right n m) _ _ _ (by rcases b with b | b <;> rw [b] <;> simp)]
      rcases b with b | b
      · exact .inl b
      · right; rw [b]; simp
    · simp at e
end

/-- C51 (c), the other direction for the same parsers: whenever PEG semantics gives an answer, the code ends,
with that answer or with the trap of `<string>` (below). -/
theorem C51_peg_answers_partial (p : Parser) (i : List Int) (hg : Good p) (r : Option (PV × List Int))
    (h : Peg p i r) :
    ∃ N, ∀ n ≥ N, run n p i = .trap ∨ (∃ v j, r = some (v, j) ∧ run n p i = .ok v j) ∨
      (r = none ∧ ∃ j, run n p i = .fail j) := by
  obtain ⟨N, a⟩ := complete h hg
  refine ⟨N, fun n hn => ?_⟩
  rw [run_le hn p i a.ne]
  exact a

/-- the parser of one token -/
def lit (c : Int) : Parser := .sat (· == c)

/-- C51 is false for `@or`: the second alternative is tried where the first one failed, not on the same input.
`(@or (@seq a b) (@seq a c))` does not accept `a c`. -/
theorem C51_or_does_not_backtrack (a b c : Int) (hab : a ≠ b) (hbc : b ≠ c) (hac : a ≠ c) :
    Peg (.or (.seq (lit a) (lit b)) (.seq (lit a) (lit c))) [a, c] (some (.cons (.tok a) (.tok c), [])) ∧
    ∀ n, n ≥ 3 → run n (.or (.seq (lit a) (lit b)) (.seq (lit a) (lit c))) [a, c] = .fail [c] := by
  constructor
  · refine .orRight (.seqFail2 (.satOk (by simp)) (.satFail (by simpa using Ne.symm hbc))) ?_
    exact .seqOk (.satOk (by simp)) (.satOk (by simp))
  · intro n hn
    have : run 3 (.or (.seq (lit a) (lit b)) (.seq (lit a) (lit c))) [a, c] = .fail [c] := by
      simp [run, lit, Ne.symm hbc, Ne.symm hac]
    rw [run_le hn _ _ (by rw [this]; simp), this]

/-- C51 is false for `@*`: tokens consumed by the failing last round are lost. `(@* (@seq a b))` on `a b a`
succeeds and leaves nothing, although it matched only `a b`. -/
theorem C51_star_loses_tokens (a b : Int) (hab : a ≠ b) :
    Peg (.star (.seq (lit a) (lit b))) [a, b, a] (some (.ofList [.cons (.tok a) (.tok b)], [a])) ∧
    ∀ n, n ≥ 5 → run n (.star (.seq (lit a) (lit b))) [a, b, a] =
      .ok (.ofList [.cons (.tok a) (.tok b)]) [] := by
  constructor
  · refine .star (.more (.seqOk (.satOk (by simp)) (.satOk (by simp))) (.done ?_))
    exact .seqFail2 (.satOk (by simp)) .satEnd
  · intro n hn
    have : run 5 (.star (.seq (lit a) (lit b))) [a, b, a] = .ok (.ofList [.cons (.tok a) (.tok b)]) [] := by
      simp [run, recur, lit]
    rw [run_le hn _ _ (by rw [this]; simp), this]

/-- `<string>` on an input that ends inside the string traps instead of failing. -/
theorem C51_string_traps_at_the_end (s i : List Int) (hp : i <+: s) (hl : i.length < s.length) (n : Nat) :
    Peg (.string s) i none ∧ run (n + 1) (.string s) i = .trap := by
  constructor
  · refine .strFail ?_
    intro h
    have := h.length_le
    omega
  · simp only [run]
    have : subList s i = none := by
      obtain ⟨t, rfl⟩ := hp
      induction i with
      | nil =>
        cases t with
        | nil => simp at hl
        | cons a t => rfl
      | cons a i ih =>
        simp only [List.cons_append, subList, if_true]
        exact ih (by simpa using hl)
    rw [this]

/-- a parser for a comma-separated list of digits meets the hypothesis of the partial theorems -/
example : Good (.seq (.sat (fun c => 48 ≤ c ∧ c ≤ 57)) (.star (.or (lit 44) (.sat (fun c => 48 ≤ c ∧ c ≤ 57))))) :=
  ⟨trivial, inPlace_or (inPlace_sat _) (inPlace_sat _), inPlace_sat _, trivial, trivial⟩

/-- and it really parses -/
example : run 9 (.seq (.sat (fun c => 48 ≤ c ∧ c ≤ 57)) (.star (.or (lit 44) (.sat (fun c => 48 ≤ c ∧ c ≤ 57)))))
    [49, 44, 50, 59] = .ok (.cons (.tok 49) (.ofList [.tok 44, .tok 50])) [59] := by decide

end Cora.Peg
