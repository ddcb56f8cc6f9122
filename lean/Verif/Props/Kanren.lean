import Verif.Model.Kanren
import Verif.Props.Unify
/-
C61: the search of lib/ukanren.cora.
-/
open Spec
namespace Cora.Kanren

variable {σ C : Type}

/-! ### what a stream stands for -/

mutual
/-- `r` is an answer of the stream, now or later -/
inductive InS (P : C → Goal σ C) : Stm σ C → KState σ → Prop
  | head {h : KState σ} {t : Stm σ C} : InS P (.cons h t) h
  | tail {h : KState σ} {t : Stm σ C} {r : KState σ} : InS P t r → InS P (.cons h t) r
  | fn {k : Fn σ C} {r : KState σ} : InF P k r → InS P (.fn k) r
/-- `r` is an answer of the stream that the function gives -/
inductive InF (P : C → Goal σ C) : Fn σ C → KState σ → Prop
  | left {y : Stm σ C} {x : Fn σ C} {r : KState σ} : InS P y r → InF P (.mplus y x) r
  | right {y : Stm σ C} {x : Fn σ C} {r : KState σ} : InF P x r → InF P (.mplus y x) r
  | bind {x : Fn σ C} {g : Goal σ C} {q r : KState σ} : InF P x q → Sol P g q r → InF P (.bind x g) r
  | zzz {c : C} {s r : KState σ} : Sol P (P c) s r → InF P (.zzz c s) r
end

variable {P : C → Goal σ C} {proc : Stm σ C → Bool}

theorem mplus_in {x y z : Stm σ C} (h : mplus proc x y = some z) (r : KState σ) :
    InS P z r ↔ InS P x r ∨ InS P y r := by
  fun_induction mplus proc x y generalizing z with
  | case1 x =>
    cases h
    exact ⟨.inr, fun h => h.elim (fun h => by cases h) id⟩
  | case2 k y hp =>
    cases h
    constructor
    · intro h
      cases h with
      | fn h => cases h with
        | left h => exact .inr h
        | right h => exact .inl (.fn h)
    · rintro (h | h)
      · cases h with
        | fn h => exact .fn (.right h)
      · exact .fn (.left h)
  | case3 => cases h
  | case4 a t z' ih =>
    cases hm : mplus proc t z' with
    | none => rw [hm] at h; cases h
    | some w =>
      rw [hm] at h; cases h
      have := ih hm
      constructor
      · intro h
        cases h with
        | head => exact .inl .head
        | tail h => exact (this.mp h).elim (fun h => .inl (.tail h)) .inr
      · rintro (h | h)
        · cases h with
          | head => exact .head
          | tail h => exact .tail (this.mpr (.inl h))
        · exact .tail (this.mpr (.inr h))

theorem bind_in {g : Goal σ C} {x z : Stm σ C}
    (hf : ∀ s st, call proc g s = some st → ∀ r, InS P st r ↔ Sol P g s r)
    (h : bind proc (call proc g) g x = some z) (r : KState σ) :
    InS P z r ↔ ∃ q, InS P x q ∧ Sol P g q r := by
  fun_induction bind proc (call proc g) g x generalizing z with
  | case1 =>
    cases h
    exact ⟨(fun h => by cases h), fun ⟨_, h, _⟩ => by cases h⟩
  | case2 k hp =>
    cases h
    constructor
    · intro h
      cases h with
      | fn h => cases h with
        | bind h1 h2 => exact ⟨_, .fn h1, h2⟩
    · rintro ⟨q, h1, h2⟩
      cases h1 with
      | fn h1 => exact .fn (.bind h1 h2)
  | case3 => cases h
  | case4 a t ih =>
    cases ha : call proc g a with
    | none => simp [ha] at h
    | some w =>
      cases hb : bind proc (call proc g) g t with
      | none => simp [ha, hb] at h
      | some v =>
        simp only [ha, hb, Option.bind_eq_bind, Option.bind_some] at h
        rw [mplus_in h, hf _ _ ha, ih hb]
        constructor
        · rintro (h | ⟨q, h1, h2⟩)
          · exact ⟨_, .head, h⟩
          · exact ⟨q, .tail h1, h2⟩
        · rintro ⟨q, h1, h2⟩
          cases h1 with
          | head => exact .inl h2
          | tail h1 => exact .inr ⟨q, h1, h2⟩

/-- calling a goal gives the stream of its solutions -/
theorem call_in (g : Goal σ C) : ∀ (s : KState σ) (st : Stm σ C), call proc g s = some st →
    ∀ r, InS P st r ↔ Sol P g s r := by
  induction g with
  | prim f =>
    intro s st h r
    rw [call] at h
    cases hf : f s.1 with
    | none =>
      rw [hf] at h; cases h
      exact ⟨(fun h => by cases h), fun h => by cases h with | prim h => rw [hf] at h; cases h⟩
    | some q =>
      rw [hf] at h; cases h
      constructor
      · intro h
        cases h with
        | head => exact .prim hf
        | tail h => cases h
      · intro h
        cases h with
        | prim h => rw [hf] at h; cases h; exact .head
  | fresh f ih =>
    intro s st h r
    rw [ih _ _ _ h]
    exact ⟨.fresh, fun h => by cases h with | fresh h => exact h⟩
  | disj a b iha ihb =>
    intro s st h r
    rw [call] at h
    cases ha : call proc a s with
    | none => simp [ha] at h
    | some w =>
      cases hb : call proc b s with
      | none => simp [ha, hb] at h
      | some v =>
        simp only [ha, hb, Option.bind_eq_bind, Option.bind_some] at h
        rw [mplus_in h, iha _ _ ha, ihb _ _ hb]
        exact ⟨fun h => h.elim .left .right, fun h => by
          cases h with
          | left h => exact .inl h
          | right h => exact .inr h⟩
  | conj a b iha ihb =>
    intro s st h r
    rw [call] at h
    cases ha : call proc a s with
    | none => simp [ha] at h
    | some w =>
      simp only [ha, Option.bind_eq_bind, Option.bind_some] at h
      rw [bind_in ihb h]
      constructor
      · rintro ⟨q, h1, h2⟩
        exact .conj ((iha _ _ ha q).mp h1) h2
      · intro h
        cases h with
        | conj h1 h2 => exact ⟨_, (iha _ _ ha _).mpr h1, h2⟩
  | later c =>
    intro s st h r
    rw [call] at h
    cases h
    exact ⟨fun h => by cases h with | fn h => cases h with | zzz h => exact .later h,
      fun h => by cases h with | later h => exact .fn (.zzz h)⟩

theorem force_in (k : Fn σ C) : ∀ (st : Stm σ C), force proc P k = some st → ∀ r, InS P st r ↔ InF P k r := by
  refine Fn.rec (motive_1 := fun _ => True)
    (motive_2 := fun k => ∀ (st : Stm σ C), force proc P k = some st → ∀ r, InS P st r ↔ InF P k r)
    trivial (fun _ _ _ => trivial) (fun _ _ => trivial) ?_ ?_ ?_ k
  · intro y x _ ih st h r
    rw [force] at h
    cases hx : force proc P x with
    | none => simp [hx] at h
    | some w =>
      simp only [hx, Option.bind_eq_bind, Option.bind_some] at h
      rw [mplus_in h, ih _ hx]
      exact ⟨fun h => h.elim .left .right, fun h => by
        cases h with
        | left h => exact .inl h
        | right h => exact .inr h⟩
  · intro x g ih st h r
    rw [force] at h
    cases hx : force proc P x with
    | none => simp [hx] at h
    | some w =>
      simp only [hx, Option.bind_eq_bind, Option.bind_some] at h
      rw [bind_in (call_in g) h]
      constructor
      · rintro ⟨q, h1, h2⟩
        exact .bind ((ih _ hx q).mp h1) h2
      · intro h
        cases h with
        | bind h1 h2 => exact ⟨_, (ih _ hx _).mpr h1, h2⟩
  · intro c s st h r
    rw [force] at h
    rw [call_in _ _ _ h]
    exact ⟨.zzz, fun h => by cases h with | zzz h => exact h⟩

theorem pull_in {n : Nat} {s s' : Stm σ C} (h : pull proc P n s = .done s') (r : KState σ) :
    InS P s' r ↔ InS P s r := by
  induction n generalizing s with
  | zero =>
    cases s with
    | nil => simp only [pull] at h; cases h; rfl
    | cons a t => simp only [pull] at h; cases h; rfl
    | fn k =>
      simp only [pull] at h
      split at h
      · cases h
      · cases h; rfl
  | succ n ih =>
    cases s with
    | nil => simp only [pull] at h; cases h; rfl
    | cons a t => simp only [pull] at h; cases h; rfl
    | fn k =>
      simp only [pull] at h
      split at h
      · cases hk : force proc P k with
        | none => rw [hk] at h; cases h
        | some w =>
          rw [hk] at h
          rw [ih h, force_in k _ hk]
          exact ⟨.fn, fun h => by cases h with | fn h => exact h⟩
      · cases h; rfl

/-- answers that were taken are answers of the stream; when fewer came than were asked for, there are no others -/
theorem take_in {fuel n : Nat} {s : Stm σ C} {l : List (KState σ)} (h : take proc P fuel n s = .done l) :
    (∀ r ∈ l, InS P s r) ∧ l.length ≤ n ∧ (l.length < n → ∀ r, InS P s r → r ∈ l) := by
  induction n generalizing s l with
  | zero => simp only [take] at h; cases h; simp
  | succ n ih =>
    simp only [take] at h
    cases hp : pull proc P fuel s with
    | more => rw [hp] at h; cases h
    | stuck => rw [hp] at h; cases h
    | done s' =>
      rw [hp] at h
      cases s' with
      | nil =>
        cases h
        refine ⟨by simp, by simp, fun _ r hr => ?_⟩
        cases (pull_in hp r).mpr hr
      | fn k => cases h
      | cons a t =>
        simp only at h
        cases ht : take proc P fuel n t with
        | more => rw [ht] at h; cases h
        | stuck => rw [ht] at h; cases h
        | done l' =>
          rw [ht] at h; cases h
          obtain ⟨h1, h2, h3⟩ := ih ht
          refine ⟨fun r hr => (pull_in hp r).mp ?_, by simp; omega, fun hl r hr => ?_⟩
          · rcases List.mem_cons.mp hr with rfl | hr
            · exact .head
            · exact .tail (h1 r hr)
          · have := (pull_in hp r).mpr hr
            cases this with
            | head => simp
            | tail h => exact List.mem_cons_of_mem _ (h3 (by simpa using hl) r h)

theorem takeAll_in {fuel n : Nat} {s : Stm σ C} {l : List (KState σ)} (h : takeAll proc P fuel n s = .done l)
    (r : KState σ) : r ∈ l ↔ InS P s r := by
  induction n generalizing s l with
  | zero => simp only [takeAll] at h; cases h
  | succ n ih =>
    simp only [takeAll] at h
    cases hp : pull proc P fuel s with
    | more => rw [hp] at h; cases h
    | stuck => rw [hp] at h; cases h
    | done s' =>
      rw [hp] at h
      cases s' with
      | nil =>
        cases h
        rw [← pull_in hp]
        exact ⟨(fun h => by cases h), fun h => by cases h⟩
      | fn k => cases h
      | cons a t =>
        simp only at h
        cases ht : takeAll proc P fuel n t with
        | more => rw [ht] at h; cases h
        | stuck => rw [ht] at h; cases h
        | done l' =>
          rw [ht] at h; cases h
          rw [← pull_in hp, List.mem_cons, ih ht]
          constructor
          · rintro (rfl | h)
            · exact .head
            · exact .tail h
          · intro h
            cases h with
            | head => exact .inl rfl
            | tail h => exact .inr h

/-! ### how soon an answer comes, when `procedure?` knows functions -/

/-- `r` comes after `n` calls of functions -/
inductive Reach (P : C → Goal σ C) : Nat → Stm σ C → KState σ → Prop
  | head {n : Nat} {h : KState σ} {t : Stm σ C} : Reach P n (.cons h t) h
  | tail {n : Nat} {h : KState σ} {t : Stm σ C} {r : KState σ} : Reach P n t r → Reach P n (.cons h t) r
  | fn {n : Nat} {k : Fn σ C} {s : Stm σ C} {r : KState σ} :
      force isFn P k = some s → Reach P n s r → Reach P (n + 1) (.fn k) r

theorem mplus_total (x y : Stm σ C) : ∃ z, mplus isFn x y = some z := by
  fun_induction mplus isFn x y with
  | case1 x => exact ⟨_, rfl⟩
  | case2 k y hp => exact ⟨_, rfl⟩
  | case3 k y hp => simp [isFn] at hp
  | case4 a t z ih => obtain ⟨w, hw⟩ := ih; exact ⟨_, by rw [hw]; rfl⟩

theorem bind_total {f : KState σ → Option (Stm σ C)} (hf : ∀ s, ∃ z, f s = some z) (g : Goal σ C) (x : Stm σ C) :
    ∃ z, bind isFn f g x = some z := by
  fun_induction bind isFn f g x with
  | case1 => exact ⟨_, rfl⟩
  | case2 k hp => exact ⟨_, rfl⟩
  | case3 k hp => simp [isFn] at hp
  | case4 a t ih =>
    obtain ⟨w, hw⟩ := hf a
    obtain ⟨v, hv⟩ := ih
    obtain ⟨u, hu⟩ := mplus_total w v
    exact ⟨u, by simp [hw, hv, hu]⟩

theorem call_total (g : Goal σ C) : ∀ s, ∃ z, call isFn g s = some z := by
  induction g with
  | prim f => intro s; rw [call]; cases f s.1 <;> exact ⟨_, rfl⟩
  | fresh f ih => intro s; rw [call]; exact ih _ _
  | disj a b iha ihb =>
    intro s
    obtain ⟨w, hw⟩ := iha s
    obtain ⟨v, hv⟩ := ihb s
    obtain ⟨u, hu⟩ := mplus_total w v
    exact ⟨u, by rw [call]; simp [hw, hv, hu]⟩
  | conj a b iha ihb =>
    intro s
    obtain ⟨w, hw⟩ := iha s
    obtain ⟨u, hu⟩ := bind_total ihb b w
    exact ⟨u, by rw [call]; simp [hw, hu]⟩
  | later c => intro s; exact ⟨_, rfl⟩

theorem force_total (k : Fn σ C) : ∃ z, force isFn P k = some z := by
  refine Fn.rec (motive_1 := fun _ => True) (motive_2 := fun k => ∃ z, force isFn P k = some z)
    trivial (fun _ _ _ => trivial) (fun _ _ => trivial) ?_ ?_ ?_ k
  · rintro y x _ ⟨w, hw⟩
    obtain ⟨u, hu⟩ := mplus_total y w
    exact ⟨u, by rw [force]; simp [hw, hu]⟩
  · rintro x g ⟨w, hw⟩
    obtain ⟨u, hu⟩ := bind_total (call_total g) g w
    exact ⟨u, by rw [force]; simp [hw, hu]⟩
  · intro c s
    rw [force]
    exact call_total _ _

/-- both sides of `mplus` are served -/
theorem reach_mplus (n : Nat) :
    (∀ (x y z : Stm σ C) (r : KState σ), Reach P n x r → mplus isFn x y = some z → ∃ m, Reach P m z r) ∧
    (∀ (x y z : Stm σ C) (r : KState σ), Reach P n y r → mplus isFn x y = some z → ∃ m, Reach P m z r) := by
  induction n with
  | zero =>
    have left : ∀ (x y z : Stm σ C) (r : KState σ), Reach P 0 x r → mplus isFn x y = some z →
        ∃ m, Reach P m z r := by
      intro x y z r hr h
      fun_induction mplus isFn x y generalizing z with
      | case1 x => cases hr
      | case2 k y hp => cases hr
      | case3 k y hp => cases h
      | case4 a t y ih =>
        obtain ⟨w, hw⟩ := mplus_total t y
        rw [hw] at h; cases h
        cases hr with
        | head => exact ⟨0, .head⟩
        | tail hr => obtain ⟨m, hm⟩ := ih w hr hw; exact ⟨m, .tail hm⟩
    refine ⟨left, ?_⟩
    intro x y z r hr h
    fun_induction mplus isFn x y generalizing z with
    | case1 x => cases h; exact ⟨_, hr⟩
    | case2 k y hp =>
      cases h
      obtain ⟨w, hw⟩ := force_total (P := P) k
      obtain ⟨u, hu⟩ := mplus_total y w
      obtain ⟨m, hm⟩ := left y w u r hr hu
      exact ⟨m + 1, .fn (by rw [force]; simp [hw, hu]) hm⟩
    | case3 k y hp => cases h
    | case4 a t y ih =>
      obtain ⟨w, hw⟩ := mplus_total t y
      rw [hw] at h; cases h
      obtain ⟨m, hm⟩ := ih w hr hw; exact ⟨m, .tail hm⟩
  | succ n ihn =>
    have left : ∀ (x y z : Stm σ C) (r : KState σ), Reach P (n + 1) x r → mplus isFn x y = some z →
        ∃ m, Reach P m z r := by
      intro x y z r hr h
      fun_induction mplus isFn x y generalizing z with
      | case1 x => cases hr
      | case2 k y hp =>
        cases h
        cases hr with
        | fn hk hr =>
          rename_i w
          obtain ⟨u, hu⟩ := mplus_total y w
          obtain ⟨m, hm⟩ := ihn.2 y w u r hr hu
          exact ⟨m + 1, .fn (by rw [force]; simp [hk, hu]) hm⟩
      | case3 k y hp => cases h
      | case4 a t y ih =>
        obtain ⟨w, hw⟩ := mplus_total t y
        rw [hw] at h; cases h
        cases hr with
        | head => exact ⟨0, .head⟩
        | tail hr => obtain ⟨m, hm⟩ := ih w hr hw; exact ⟨m, .tail hm⟩
    refine ⟨left, ?_⟩
    intro x y z r hr h
    fun_induction mplus isFn x y generalizing z with
    | case1 x => cases h; exact ⟨_, hr⟩
    | case2 k y hp =>
      cases h
      obtain ⟨w, hw⟩ := force_total (P := P) k
      obtain ⟨u, hu⟩ := mplus_total y w
      obtain ⟨m, hm⟩ := left y w u r hr hu
      exact ⟨m + 1, .fn (by rw [force]; simp [hw, hu]) hm⟩
    | case3 k y hp => cases h
    | case4 a t y ih =>
      obtain ⟨w, hw⟩ := mplus_total t y
      rw [hw] at h; cases h
      obtain ⟨m, hm⟩ := ih w hr hw; exact ⟨m, .tail hm⟩

theorem reach_bind {g : Goal σ C} {q r : KState σ} {n : Nat} {x : Stm σ C} (hx : Reach P n x q)
    (hg : ∀ z, call isFn g q = some z → ∃ m, Reach P m z r) :
    ∀ z, bind isFn (call isFn g) g x = some z → ∃ m, Reach P m z r := by
  induction hx with
  | @head n h t =>
    intro z hz
    obtain ⟨a, ha⟩ := call_total g h
    obtain ⟨b, hb⟩ := bind_total (call_total g) g t
    simp only [bind, ha, hb, Option.bind_eq_bind, Option.bind_some] at hz
    obtain ⟨m, hm⟩ := hg a ha
    exact (reach_mplus m).1 a b z r hm hz
  | @tail n h t q hq ih =>
    intro z hz
    obtain ⟨a, ha⟩ := call_total g h
    obtain ⟨b, hb⟩ := bind_total (call_total g) g t
    simp only [bind, ha, hb, Option.bind_eq_bind, Option.bind_some] at hz
    obtain ⟨m, hm⟩ := ih hg b hb
    exact (reach_mplus m).2 a b z r hm hz
  | @fn n k s q hk hs ih =>
    intro z hz
    simp only [bind, isFn, if_true] at hz
    cases hz
    obtain ⟨u, hu⟩ := bind_total (call_total g) g s
    obtain ⟨m, hm⟩ := ih hg u hu
    exact ⟨m + 1, .fn (by rw [force]; simp [hk, hu]) hm⟩

/-- every solution comes after finitely many calls -/
theorem sol_reach {g : Goal σ C} {s r : KState σ} (h : Sol P g s r) :
    ∀ z, call isFn g s = some z → ∃ m, Reach P m z r := by
  induction h with
  | prim h => intro z hz; simp only [call, h] at hz; cases hz; exact ⟨0, .head⟩
  | fresh _ ih => intro z hz; exact ih z hz
  | @left a b s r _ ih =>
    intro z hz
    obtain ⟨u, hu⟩ := call_total a s
    obtain ⟨v, hv⟩ := call_total b s
    simp only [call, hu, hv, Option.bind_eq_bind, Option.bind_some] at hz
    obtain ⟨m, hm⟩ := ih u hu
    exact (reach_mplus m).1 u v z r hm hz
  | @right a b s r _ ih =>
    intro z hz
    obtain ⟨u, hu⟩ := call_total a s
    obtain ⟨v, hv⟩ := call_total b s
    simp only [call, hu, hv, Option.bind_eq_bind, Option.bind_some] at hz
    obtain ⟨m, hm⟩ := ih v hv
    exact (reach_mplus m).2 u v z r hm hz
  | @conj a b s q t _ _ iha ihb =>
    intro z hz
    obtain ⟨u, hu⟩ := call_total a s
    simp only [call, hu, Option.bind_eq_bind, Option.bind_some] at hz
    obtain ⟨m, hm⟩ := iha u hu
    exact reach_bind hm ihb z hz
  | @later c s r _ ih =>
    intro z hz
    simp only [call] at hz
    cases hz
    obtain ⟨u, hu⟩ := call_total (P c) s
    obtain ⟨m, hm⟩ := ih u hu
    exact ⟨m + 1, .fn (by rw [force]; exact hu) hm⟩

theorem pull_mono {n m : Nat} {s s' : Stm σ C} (h : pull proc P n s = .done s') (hm : n ≤ m) :
    pull proc P m s = .done s' := by
  induction n generalizing s m with
  | zero =>
    cases s with
    | nil => simpa only [pull] using h
    | cons a t => simpa only [pull] using h
    | fn k =>
      simp only [pull] at h
      split at h
      · cases h
      · rename_i hp; cases m <;> (simp only [pull]; rw [if_neg hp]; exact h)
  | succ n ih =>
    cases s with
    | nil => simpa only [pull] using h
    | cons a t => simpa only [pull] using h
    | fn k =>
      obtain ⟨m, rfl⟩ : ∃ m', m = m' + 1 := ⟨m - 1, by omega⟩
      simp only [pull] at h ⊢
      split at h
      · rename_i hp
        rw [if_pos hp]
        cases hk : force proc P k with
        | none => rw [hk] at h; cases h
        | some w => rw [hk] at h; exact ih h (by omega)
      · rename_i hp; rw [if_neg hp]; exact h

theorem take_mono {n m k : Nat} {s : Stm σ C} {l : List (KState σ)} (h : take proc P n k s = .done l) (hm : n ≤ m) :
    take proc P m k s = .done l := by
  induction k generalizing s l with
  | zero => simpa only [take] using h
  | succ k ih =>
    simp only [take] at h ⊢
    cases hp : pull proc P n s with
    | more => rw [hp] at h; cases h
    | stuck => rw [hp] at h; cases h
    | done s' =>
      rw [pull_mono hp hm]
      rw [hp] at h
      cases s' with
      | nil => exact h
      | fn k => cases h
      | cons a t =>
        simp only at h ⊢
        cases ht : take proc P n k t with
        | more => rw [ht] at h; cases h
        | stuck => rw [ht] at h; cases h
        | done l' => rw [ht] at h; rw [ih ht]; exact h

theorem reach_take {n : Nat} {s : Stm σ C} {r : KState σ} (h : Reach P n s r) :
    ∃ fuel k l, take isFn P fuel k s = .done l ∧ r ∈ l := by
  induction h with
  | head => exact ⟨0, 1, [_], by simp only [take, pull], List.mem_singleton.mpr rfl⟩
  | @tail n h t r _ ih =>
    obtain ⟨fuel, k, l, h1, h2⟩ := ih
    exact ⟨fuel, k + 1, h :: l, by rw [take]; simp only [pull]; rw [h1], List.mem_cons_of_mem _ h2⟩
  | @fn n f s r hf _ ih =>
    obtain ⟨fuel, k, l, h1, h2⟩ := ih
    refine ⟨fuel + 1, k, l, ?_, h2⟩
    cases k with
    | zero => simp only [take] at h1 ⊢; exact h1
    | succ k =>
      have h1' := take_mono h1 (Nat.le_succ fuel)
      simp only [take] at h1 h1' ⊢
      cases hp : pull isFn P fuel s with
      | more => rw [hp] at h1; cases h1
      | stuck => rw [hp] at h1; cases h1
      | done s' =>
        have e : pull isFn P (fuel + 1) (.fn f) = .done s' := by
          simp only [pull, isFn, if_true, hf]; exact hp
        rw [e]
        rw [pull_mono hp (Nat.le_succ fuel)] at h1'
        exact h1'

/-! ### the property -/

/-- call a goal in a state and take `k` answers -/
def answers (proc : Stm σ C → Bool) (P : C → Goal σ C) (fuel k : Nat) (g : Goal σ C) (s : KState σ) :
    Res (List (KState σ)) :=
  match call proc g s with
  | none => .stuck
  | some st => take proc P fuel k st

/-- call a goal in a state and take all answers -/
def allAnswers (proc : Stm σ C → Bool) (P : C → Goal σ C) (fuel k : Nat) (g : Goal σ C) (s : KState σ) :
    Res (List (KState σ)) :=
  match call proc g s with
  | none => .stuck
  | some st => takeAll proc P fuel k st

/-- C61: what `take k` gives are solutions, at most `k`, and all of them if they are fewer than `k`. (True of the
code, and for every other `procedure?`.) -/
theorem C61_take_sound (proc : Stm σ C → Bool) (P : C → Goal σ C) {fuel k : Nat} {g : Goal σ C} {s : KState σ}
    {l : List (KState σ)} (h : answers proc P fuel k g s = .done l) :
    (∀ r ∈ l, Sol P g s r) ∧ l.length ≤ k ∧ (l.length < k → ∀ r, Sol P g s r → r ∈ l) := by
  unfold answers at h
  cases hc : call proc g s with
  | none => rw [hc] at h; cases h
  | some st =>
    rw [hc] at h
    obtain ⟨h1, h2, h3⟩ := take_in h
    have := call_in (P := P) g s st hc
    exact ⟨fun r hr => (this r).mp (h1 r hr), h2, fun hl r hr => h3 hl r ((this r).mpr hr)⟩

/-- C61: when `take-all` ends, it gives the solutions and nothing else -/
theorem C61_take_all (proc : Stm σ C → Bool) (P : C → Goal σ C) {fuel k : Nat} {g : Goal σ C} {s : KState σ}
    {l : List (KState σ)} (h : allAnswers proc P fuel k g s = .done l) (r : KState σ) : r ∈ l ↔ Sol P g s r := by
  unfold allAnswers at h
  cases hc : call proc g s with
  | none => rw [hc] at h; cases h
  | some st =>
    rw [hc] at h
    rw [takeAll_in h, call_in g s st hc]

/-- C61, partial: if `procedure?` recognised functions, every solution would be among the first answers, also
behind branches of the search that never end -/
theorem C61_search_complete_partial (P : C → Goal σ C) (g : Goal σ C) (s r : KState σ) (h : Sol P g s r) :
    ∃ fuel k l, answers isFn P fuel k g s = .done l ∧ r ∈ l := by
  obtain ⟨st, hst⟩ := call_total g s
  obtain ⟨m, hm⟩ := sol_reach h st hst
  obtain ⟨fuel, k, l, h1, h2⟩ := reach_take hm
  exact ⟨fuel, k, l, by unfold answers; rw [hst]; exact h1, h2⟩

/-! ### goals without `Zzz` -/

/-- no function in the stream -/
inductive Flat : Stm σ C → Prop
  | nil : Flat .nil
  | cons {h : KState σ} {t : Stm σ C} : Flat t → Flat (.cons h t)

theorem mplus_flat {x y : Stm σ C} (hx : Flat x) (hy : Flat y) : ∃ z, mplus proc x y = some z ∧ Flat z := by
  induction hx with
  | nil => exact ⟨y, by rw [mplus], hy⟩
  | cons _ ih => obtain ⟨z, h1, h2⟩ := ih; exact ⟨.cons _ z, by rw [mplus, h1]; rfl, .cons h2⟩

theorem bind_flat {f : KState σ → Option (Stm σ C)} {g : Goal σ C} {x : Stm σ C}
    (hf : ∀ s, ∃ z, f s = some z ∧ Flat z) (hx : Flat x) : ∃ z, bind proc f g x = some z ∧ Flat z := by
  induction hx with
  | nil => exact ⟨_, by rw [bind], .nil⟩
  | @cons h t _ ih =>
    obtain ⟨v, h1, h2⟩ := ih
    obtain ⟨u, h3, h4⟩ := hf h
    obtain ⟨w, h5, h6⟩ := mplus_flat (proc := proc) h4 h2
    exact ⟨w, by rw [bind]; simp [h1, h3, h5], h6⟩

theorem call_flat {g : Goal σ C} (hg : Prompt g) : ∀ s, ∃ z, call proc g s = some z ∧ Flat z := by
  induction hg with
  | prim f =>
    intro s
    cases hf : f s.1 with
    | none => exact ⟨.nil, by rw [call, hf], .nil⟩
    | some r => exact ⟨_, by rw [call, hf], .cons .nil⟩
  | fresh _ ih => intro s; rw [call]; exact ih _ _
  | disj _ _ iha ihb =>
    intro s
    obtain ⟨u, h1, h2⟩ := iha s
    obtain ⟨v, h3, h4⟩ := ihb s
    obtain ⟨w, h5, h6⟩ := mplus_flat (proc := proc) h2 h4
    exact ⟨w, by rw [call]; simp [h1, h3, h5], h6⟩
  | @conj a b _ _ iha ihb =>
    intro s
    obtain ⟨u, h1, h2⟩ := iha s
    obtain ⟨w, h5, h6⟩ := bind_flat (proc := proc) (g := b) ihb h2
    exact ⟨w, by rw [call]; simp [h1, h5], h6⟩

theorem takeAll_flat {x : Stm σ C} (hx : Flat x) (fuel : Nat) : ∃ k l, takeAll proc P fuel k x = .done l := by
  induction hx with
  | nil => exact ⟨1, [], by rw [takeAll]; simp [pull]⟩
  | @cons h t _ ih =>
    obtain ⟨k, l, hl⟩ := ih
    exact ⟨k + 1, h :: l, by rw [takeAll]; simp only [pull, hl]⟩

/-- C61, partial: for goals in which nothing is put off (no `Zzz`, so no `conj+`, `disj+`, `fresh`, `conde` and no
recursion) the code finds all solutions -/
theorem C61_prompt_goals_partial (P : C → Goal σ C) {g : Goal σ C} (hg : Prompt g) (s : KState σ) :
    ∃ k l, allAnswers procedure? P 0 k g s = .done l ∧ ∀ r, r ∈ l ↔ Sol P g s r := by
  obtain ⟨st, h1, h2⟩ := call_flat (proc := procedure?) hg s
  obtain ⟨k, l, hl⟩ := takeAll_flat (proc := procedure?) (P := P) h2 0
  have h : allAnswers procedure? P 0 k g s = .done l := by unfold allAnswers; rw [h1]; exact hl
  exact ⟨k, l, h, C61_take_all procedure? P h⟩

/-! ### the macros -/

theorem conjPlus_call (c : C) (cs : List C) (s : KState σ) :
    call procedure? (conjPlus c cs) s = some (.fn (.zzz c s)) ∨ call procedure? (conjPlus c cs) s = none := by
  cases cs with
  | nil => exact .inl rfl
  | cons c' cs => exact .inr rfl

theorem fresh_call (n : Nat) (body : List Nat → C × List C) (s : KState σ) :
    (∃ k, call procedure? (freshPlus n body) s = some (.fn k)) ∨ call procedure? (freshPlus n body) s = none := by
  induction n generalizing body s with
  | zero => exact (conjPlus_call _ _ s).elim (fun h => .inl ⟨_, h⟩) .inr
  | succ n ih => exact ih _ _

/-- C61 is false of the code: `(run k (x …) g …)` fails for every `k > 0` and all goals, because `procedure?` does
not know the functions that `fresh` makes -/
theorem C61_run_stuck_wrong (P : C → Goal σ C) (n : Nat) (body : List Nat → C × List C) (s : KState σ)
    (fuel k : Nat) : answers procedure? P fuel (k + 1) (freshPlus n body) s = .stuck := by
  unfold answers
  rcases fresh_call n body s with ⟨f, h⟩ | h
  · rw [h]
    cases fuel <;> simp [take, pull, procedure?]
  · rw [h]

/-- C61 is false of the code: `(run * (x …) g …)` fails -/
theorem C61_run_all_stuck_wrong (P : C → Goal σ C) (n : Nat) (body : List Nat → C × List C) (s : KState σ)
    (fuel k : Nat) : allAnswers procedure? P fuel (k + 1) (freshPlus n body) s = .stuck := by
  unfold allAnswers
  rcases fresh_call n body s with ⟨f, h⟩ | h
  · rw [h]
    cases fuel <;> simp [takeAll, pull, procedure?]
  · rw [h]

/-! ### the forms with several goals -/

/-- the goals `cs`, one after the other, lead from `s` to `r` -/
inductive Through (P : C → Goal σ C) : List C → KState σ → KState σ → Prop
  | nil (s : KState σ) : Through P [] s s
  | cons {c : C} {cs : List C} {s r t : KState σ} : Sol P (P c) s r → Through P cs r t → Through P (c :: cs) s t

theorem conjPlus_sol (P : C → Goal σ C) (c : C) (cs : List C) (s t : KState σ) :
    Sol P (conjPlus c cs) s t ↔ Through P (c :: cs) s t := by
  induction cs generalizing c s with
  | nil =>
    constructor
    · intro h
      cases h with
      | later h => exact .cons h (.nil _)
    · intro h
      cases h with
      | cons h1 h2 => cases h2; exact .later h1
  | cons d cs ih =>
    constructor
    · intro h
      cases h with
      | conj h1 h2 =>
        cases h1 with
        | later h1 => exact .cons h1 ((ih d _).mp h2)
    · intro h
      cases h with
      | cons h1 h2 => exact .conj (.later h1) ((ih d _).mpr h2)

/-- `(fresh (x …) g …)` with `n` variables: the solutions are those that go through all goals in turn, the variables being
the next `n` numbers in the order they are written -/
theorem C61_fresh_form (P : C → Goal σ C) (n : Nat) (body : List Nat → C × List C) (s : σ) (k : Nat) (t : KState σ) :
    Sol P (freshPlus n body) (s, k) t ↔
      Through P ((body (List.range' k n)).1 :: (body (List.range' k n)).2) (s, k + n) t := by
  induction n generalizing body k with
  | zero => exact conjPlus_sol P _ _ _ _
  | succ n ih =>
    rw [List.range'_succ, show k + (n + 1) = k + 1 + n by omega]
    constructor
    · intro h
      cases h with
      | fresh h => exact (ih _ _).mp h
    · intro h
      exact .fresh ((ih _ _).mpr h)

/-- `(disj+ g …)`: the solutions are those of the goals -/
theorem C61_disj_form (P : C → Goal σ C) (c : C) (cs : List C) (s t : KState σ) :
    Sol P (disjPlus c cs) s t ↔ ∃ d ∈ c :: cs, Sol P (P d) s t := by
  induction cs generalizing c with
  | nil =>
    constructor
    · intro h
      cases h with
      | later h => exact ⟨c, by simp, h⟩
    · rintro ⟨d, hd, h⟩
      rw [List.mem_singleton] at hd
      exact .later (hd ▸ h)
  | cons d cs ih =>
    constructor
    · intro h
      cases h with
      | left h =>
        cases h with
        | later h => exact ⟨c, by simp, h⟩
      | right h =>
        obtain ⟨e, he, h⟩ := (ih d).mp h
        exact ⟨e, List.mem_cons_of_mem _ he, h⟩
    · rintro ⟨e, he, h⟩
      rcases List.mem_cons.mp he with rfl | he
      · exact .left (.later h)
      · exact .right ((ih d).mpr ⟨e, he, h⟩)

/-! ### cases -/

section Cases

/-- two relations on numbers: `(spin)` calls itself for ever; `(nat k)` is `k`, or `(nat (k + 1))`; `pick` is
either -/
inductive Call
  | spin
  | nat (k : Nat)

/-- their bodies -/
def prog : Call → Goal (List Nat) Call
  | .spin => .later .spin
  | .nat k => .disj (.prim fun s => some (k :: s)) (.later (.nat (k + 1)))

theorem nat_sol (k n : Nat) : Sol prog (prog (.nat k)) ([], 0) ([k + n], 0) := by
  induction n generalizing k with
  | zero => exact .left (.prim rfl)
  | succ n ih =>
    have := ih (k + 1)
    rw [show k + 1 + n = k + (n + 1) by omega] at this
    exact .right (.later this)

/-- every number is found behind a branch that never ends -/
example (n : Nat) : ∃ fuel k l,
    answers isFn prog fuel k (.disj (.later .spin) (.later (.nat 0))) ([], 0) = .done l ∧ ([n], 0) ∈ l :=
  C61_search_complete_partial prog _ _ _ (.right (.later (by simpa using nat_sol 0 n)))

/-- the code finds none of them, although there are solutions -/
example : Sol prog (freshPlus 1 fun _ => (.nat 0, [])) ([], 0) ([7], 1) ∧
    answers procedure? prog 100 1 (freshPlus 1 fun _ => (Call.nat 0, [])) ([], 0) = .stuck := by
  refine ⟨.fresh (.later ?_), C61_run_stuck_wrong _ _ _ _ _ _⟩
  have : ∀ k n, Sol prog (prog (.nat k)) ([], 1) ([k + n], 1) := by
    intro k n
    induction n generalizing k with
    | zero => exact .left (.prim rfl)
    | succ n ih =>
      have := ih (k + 1)
      rw [show k + 1 + n = k + (n + 1) by omega] at this
      exact .right (.later this)
  simpa using this 0 7

/-- test/ukanren-test.cora `a-and-b`: two solutions, with unification as the test -/
example : ∃ l, allAnswers procedure? prog' 0 3
      (.conj (.fresh fun a => eqGoal 5 (.var a) (.atom 7))
        (.fresh fun b => .disj (eqGoal 5 (.var b) (.atom 5)) (eqGoal 5 (.var b) (.atom 6)))) ([], 0) = .done l ∧
    l = [([(1, .atom 5), (0, .atom 7)], 2), ([(1, LTerm.atom 6), (0, .atom 7)], 2)] := ⟨_, rfl, rfl⟩
where prog' : Empty → Goal (Unify.Subst Nat) Empty := nofun

end Cases

/-! ### the goal `==` -/

section Equation
variable {A : Type} [DecidableEq A]
open Unify

/-- an answer of `(== u v)` is the substitution made longer, with the solutions under which the two terms are equal -/
theorem C61_equation_partial (P : C → Goal (Subst A) C) (n : Nat) (u v : LTerm A) (s : KState (Subst A)) (t : KState (Subst A))
    (h : Sol P (eqGoal n u v) s t) :
    t.2 = s.2 ∧ s.1 <:+ t.1 ∧ ∀ θ, Solves θ t.1 ↔ Solves θ s.1 ∧ u.inst θ = v.inst θ := by
  cases h with
  | prim h =>
    rename_i s r k
    simp only at h
    split at h
    · rename_i e l hu
      cases h
      exact ⟨rfl, C56_most_general_partial n u v s _ hu nofun⟩
    · cases h

/-- in a state with a substitution that is not empty, terms that can be made equal have an answer -/
theorem C61_equation_answer_partial (P : C → Goal (Subst A) C) (u v : LTerm A) (s : Subst A) (k : Nat) (hs : Built s) (hne : s ≠ [])
    (hu : ∃ θ, Solves θ s ∧ u.inst θ = v.inst θ) : ∃ N, ∀ n ≥ N, ∃ t, Sol P (eqGoal n u v) (s, k) t := by
  obtain ⟨r, N, h1, h2⟩ := C56_complete_partial u v s hs hu
  refine ⟨N, fun n hn => ⟨(r, k), .prim ?_⟩⟩
  rw [h1 n hn]
  cases r with
  | nil => exact absurd rfl (h2 hne)
  | cons e l => rfl

/-- in the first state `(== a a)` has no answer: its substitution is empty, which stands for failure -/
theorem C61_equation_wrong (P : C → Goal (Subst A) C) (n k : Nat) (a : A) (t : KState (Subst A)) :
    ¬ Sol P (eqGoal n (.atom a) (.atom a)) ([], k) t := by
  intro h
  cases h with
  | prim h =>
    have : ∀ e l, unify n (.atom a) (.atom a) [] ≠ some (e :: l) := by
      intro e l
      match n with
      | 0 => simp [unify]
      | 1 => simp [unify, walk]
      | n + 2 => simp [unify, walk]
    simp only at h
    cases h

example : Built [(1, LTerm.atom 7)] := .step 9 (.var 1) (.atom 7) [] _ .empty rfl
/-- `(== x0 5)` in a state in which `x1` is 7 -/
example : Sol (C := Empty) nofun (eqGoal 9 (.var 0) (.atom 5)) ([(1, .atom 7)], 2) ([(0, .atom 5), (1, .atom 7)], 2) := .prim rfl
example : ∃ θ : Nat → LTerm Nat, Solves θ [(1, .atom 7)] ∧ (LTerm.var 0).inst θ = (LTerm.atom 5).inst θ :=
  ⟨fun i => if i = 1 then .atom 7 else .atom 5, by simp [Solves, LTerm.inst], rfl⟩

end Equation

end Cora.Kanren
