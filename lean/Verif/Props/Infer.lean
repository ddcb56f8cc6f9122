import Verif.Lemmas.Infer
/-
C69: unification of types.
-/
open Spec.Types
namespace Cora.Infer

/-- equations between types, one after the other (as the type checker does it) -/
def unifyAll (n : Nat) : List (Ty × Ty) → Subst → Option URes
  | [], s => some (.succ s)
  | e :: r, s =>
    match unify n e.1 e.2 s with
    | some (.succ s1) => unifyAll n r s1
    | x => x

/-- the assignment makes all equations true -/
def Unifier (θ : Nat → Ty) (eqs : List (Ty × Ty)) : Prop := ∀ e ∈ eqs, e.1.inst θ = e.2.inst θ

/-- unifying is solving: a success says exactly that the two types are equal (its solutions are those of what was known
before that make the types equal); a failure says that nothing makes them equal -/
theorem unifyAll_mg {n : Nat} {eqs : List (Ty × Ty)} : ∀ {s r : Subst}, unifyAll n eqs s = some (.succ r) →
    ∀ θ, Solves θ r ↔ Solves θ s ∧ Unifier θ eqs := by
  induction eqs with
  | nil => intro s r h θ; cases h; simp [Unifier]
  | cons e eqs ih =>
    intro s r h θ
    simp only [unifyAll] at h
    split at h
    · rename_i s1 h1
      rw [ih h θ, unify_mg h1 θ]
      simp [Unifier, and_assoc]
    · rename_i hn
      exact absurd h (hn _)

theorem unifyAll_fail {n : Nat} {eqs : List (Ty × Ty)} : ∀ {s : Subst}, unifyAll n eqs s = some .fail →
    ∀ θ, Solves θ s → ¬ Unifier θ eqs := by
  induction eqs with
  | nil => intro s h; cases h
  | cons e eqs ih =>
    intro s h θ hθ hu
    simp only [unifyAll] at h
    split at h
    · rename_i s1 h1
      exact ih h θ ((unify_mg h1 θ).mpr ⟨hθ, hu e List.mem_cons_self⟩) fun e he => hu e (List.mem_cons_of_mem _ he)
    · exact unify_fail h θ hθ (hu e List.mem_cons_self)

/-- the answer to a set of equations says what the equations say: the same assignments make both true -/
theorem C69_success (n : Nat) (eqs : List (Ty × Ty)) (r : Subst) (h : unifyAll n eqs [] = some (.succ r)) (θ : Nat → Ty) :
    Solves θ r ↔ Unifier θ eqs := by
  rw [unifyAll_mg h θ]
  exact ⟨fun h => h.2, fun h => ⟨fun p hp => (by cases hp), h⟩⟩

/-- a failure is right: nothing makes the equations true -/
theorem C69_failure (n : Nat) (eqs : List (Ty × Ty)) (h : unifyAll n eqs [] = some .fail) (θ : Nat → Ty) :
    ¬ Unifier θ eqs :=
  unifyAll_fail h θ (fun p hp => by cases hp)

theorem unifyAll_mono {n m : Nat} (hm : n ≤ m) {eqs : List (Ty × Ty)} : ∀ {s : Subst} {r : URes},
    unifyAll n eqs s = some r → unifyAll m eqs s = some r := by
  induction eqs with
  | nil => intro s r h; exact h
  | cons e eqs ih =>
    intro s r h
    simp only [unifyAll] at h ⊢
    cases h1 : unify n e.1 e.2 s with
    | none => rw [h1] at h; cases h
    | some q =>
      rw [unify_mono hm h1]
      rw [h1] at h
      cases q with
      | fail => exact h
      | succ s1 => exact ih h

theorem unifyAll_total {eqs : List (Ty × Ty)} : ∀ {s : Subst}, WF s →
    ((∃ θ, Solves θ s ∧ Unifier θ eqs) ∨ ((∀ e ∈ eqs, e.1.plain ∧ e.2.plain) ∧ ∀ p ∈ s, p.2.plain)) →
    ∃ n r, unifyAll n eqs s = some r ∧ ∀ q, r = .succ q → WF q := by
  induction eqs with
  | nil => intro s hw _; exact ⟨0, _, rfl, fun q hq => by cases hq; exact hw⟩
  | cons e eqs ih =>
    intro s hw hf
    have f1 : Fine e.1 e.2 s := by
      rcases hf with ⟨θ, h1, h2⟩ | ⟨h1, h2⟩
      · exact .inl ⟨θ, h1, h2 e List.mem_cons_self⟩
      · exact .inr ⟨(h1 e List.mem_cons_self).1, (h1 e List.mem_cons_self).2, h2⟩
    obtain ⟨n, r, h1⟩ := unify_total hw f1
    cases r with
    | fail => exact ⟨n, .fail, by simp only [unifyAll, h1], fun q hq => by cases hq⟩
    | succ s1 =>
      obtain ⟨g1, _, _, g4⟩ := unify_ext h1 hw f1
      obtain ⟨m, r, h2, h3⟩ := ih g1 (by
        rcases hf with ⟨θ, k1, k2⟩ | ⟨k1, k2⟩
        · exact .inl ⟨θ, (unify_mg h1 θ).mpr ⟨k1, k2 e List.mem_cons_self⟩, fun e he => k2 e (List.mem_cons_of_mem _ he)⟩
        · exact .inr ⟨fun e he => k1 e (List.mem_cons_of_mem _ he),
            g4 ⟨(k1 e List.mem_cons_self).1, (k1 e List.mem_cons_self).2, k2⟩⟩)
      refine ⟨max n m, r, ?_, h3⟩
      simp only [unifyAll]
      rw [unify_mono (Nat.le_max_left n m) h1]
      exact unifyAll_mono (Nat.le_max_right n m) h2

/-- in the answer, the two sides of every equation resolve to the same type -/
theorem resolved_equal {eqs : List (Ty × Ty)} {n : Nat} {r : Subst} (h : unifyAll n eqs [] = some (.succ r)) (hw : WF r) :
    ∀ e ∈ eqs, ∃ m t, applySubst m e.1 r = some t ∧ applySubst m e.2 r = some t := by
  intro e he
  obtain ⟨θ, h1, h2⟩ := hw.solution
  obtain ⟨m1, e1⟩ := h2 e.1
  obtain ⟨m2, e2⟩ := h2 e.2
  have hu := (C69_success n eqs r h θ).mp h1 e he
  refine ⟨max m1 m2, e.1.inst θ, applySubst_mono (Nat.le_max_left _ _) e1, ?_⟩
  rw [hu]
  exact applySubst_mono (Nat.le_max_right _ _) e2

/-- equations that can be solved, between any types: unification ends with a success, and both sides of every equation
resolve to the same type -/
theorem C69_complete (eqs : List (Ty × Ty)) (hu : ∃ θ, Unifier θ eqs) :
    ∃ n r, unifyAll n eqs [] = some (.succ r) ∧
      ∀ e ∈ eqs, ∃ m t, applySubst m e.1 r = some t ∧ applySubst m e.2 r = some t := by
  obtain ⟨θ, hθ⟩ := hu
  obtain ⟨n, r, h1, h2⟩ := unifyAll_total (eqs := eqs) .nil (.inl ⟨θ, fun p hp => (by cases hp), hθ⟩)
  cases r with
  | fail => exact absurd hθ (C69_failure n eqs h1 θ)
  | succ r => exact ⟨n, r, h1, resolved_equal h1 (h2 r rfl)⟩

/-- equations between types of constants, variables and functions: unification always ends, with a success if they can be
solved and with a failure if not. Missing: lists and functions without parameter, which the occurs check does not
search. -/
theorem C69_decides_partial (eqs : List (Ty × Ty)) (hp : ∀ e ∈ eqs, e.1.plain ∧ e.2.plain) :
    (∃ n r, unifyAll n eqs [] = some (.succ r) ∧ (∃ θ, Unifier θ eqs)) ∨
      (∃ n, unifyAll n eqs [] = some .fail ∧ ¬ ∃ θ, Unifier θ eqs) := by
  obtain ⟨n, r, h1, h2⟩ := unifyAll_total (eqs := eqs) .nil (.inr ⟨hp, fun p hp => by cases hp⟩)
  cases r with
  | fail => exact .inr ⟨n, h1, fun ⟨θ, hθ⟩ => C69_failure n eqs h1 θ hθ⟩
  | succ r =>
    obtain ⟨θ, h3, _⟩ := (h2 r rfl).solution
    exact .inl ⟨n, r, h1, θ, (C69_success n eqs r h1 θ).mp h3⟩

/-- C69 is false of the code: a variable is unified with a list of itself, although no type is a list of itself -/
theorem C69_list_cycle_wrong (x : Nat) (n : Nat) :
    unify (n + 3) (.var x) (.list (.var x)) [] = some (.succ [(x, .list (.var x))]) ∧
      ∀ θ, (Ty.var x).inst θ ≠ (Ty.list (.var x)).inst θ :=
  ⟨by simp [unify, applySubst, assq, unify1, occur], fun _ => has_no_unifier rfl (by simp)⟩

theorem cycle_none (x : Nat) (n : Nat) : applySubst n (.var x) [(x, .list (.var x))] = none := by
  induction n using Nat.strongRecOn with
  | _ n ih =>
    cases n with
    | zero => rfl
    | succ n =>
      simp only [applySubst, assq, if_true]
      cases n with
      | zero => rfl
      | succ n => simp only [applySubst, ih n (by omega), Option.map_none]

/-- C69 is false of the code: with lists unification need not end -/
theorem C69_never_ends_wrong (x n : Nat) (t : Ty) :
    unify n (.arrow (.var x) (.var x)) (.arrow (.list (.var x)) t) [] = none := by
  cases n with
  | zero => rfl
  | succ n =>
    simp only [unify]
    split
    · rename_i u v hu hv
      have e1 : u = .arrow (.var x) (.var x) := by
        obtain ⟨m, e⟩ := applySubst_self (s := []) (.arrow (.var x) (.var x)) (fun _ _ h => by cases h)
        exact applySubst_det hu e
      have e2 : v = .arrow (.list (.var x)) t := by
        obtain ⟨m, e⟩ := applySubst_self (s := []) (.arrow (.list (.var x)) t) (fun _ _ h => by cases h)
        exact applySubst_det hv e
      subst e1 e2
      unfold unify1
      rw [if_neg (by simp)]
      dsimp only
      cases n with
      | zero => rfl
      | succ n =>
        cases n with
        | zero => rfl
        | succ n =>
          cases n with
          | zero => rfl
          | succ n =>
            rw [(C69_list_cycle_wrong x n).1]
            simp only [unify, cycle_none]
    · rfl

/-- three equations: `a -> b = int -> c`, `c = d -> d`, `d = bool` -/
example : unifyAll 20 [(.arrow (.var 0) (.var 1), .arrow (.con "int") (.var 2)), (.var 2, .arrow (.var 3) (.var 3)),
    (.var 3, .con "bool")] [] =
    some (.succ [(3, .con "bool"), (2, .arrow (.var 3) (.var 3)), (1, .var 2), (0, .con "int")]) := by decide

/-- `a = a -> int` is refused -/
example : unifyAll 20 [(.var 0, .arrow (.var 0) (.con "int"))] [] = some .fail := by decide

end Cora.Infer
