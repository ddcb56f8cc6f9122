import Verif.Model.InferRules
import Verif.Props.TypeCheck
/-
C70, the rules for lists, tuples and maybe, and rules that a program adds.
-/
open Spec.Types
namespace Cora.Infer

/-- Literal data next to a type: programs are checked as simple types or as tuples, pairs as lists or as tuples, and `()` as anything. -/
inductive Literal (decl : String → Option Ty) : Exp → RTy → Prop
  | leaf {e t} : Program decl e → t.ground → t.plain → Literal decl e (.base t)
  | leafTuple {e a b} : Program decl e → Literal decl e (.tuple a b)
  | nilBase {t} : t.ground → t.plain → Literal decl .nil (.base t)
  | nilList {a} : Literal decl .nil (.list a)
  | nilTuple {a b} : Literal decl .nil (.tuple a b)
  | cons {x y a} : Literal decl x a → Literal decl y (.list a) → Literal decl (.consE x y) (.list a)
  | tuple {x y a b} : Literal decl x a → Literal decl y b → Literal decl (.consE x y) (.tuple a b)
  | maybe {e a} : Literal decl e a → Literal decl e (.maybe a)

/-- the state between two checks -/
structure Between (tenv : List (String × Ty)) (s : Subst) (σ : St) : Prop where
  pre : Pre [] (.con "") s σ
  tenv : σ.tenv = tenv

theorem Between.at_ {tenv s σ} (h : Between tenv s σ) {t : Ty} (hg : t.ground) (hpl : t.plain) : Pre [] t s σ :=
  ⟨h.pre.wf, h.pre.plain, h.pre.sub, h.pre.envPlain, h.pre.env, hpl, fun y hy => absurd hy (hg y)⟩

theorem program_not_data {decl : String → Option Ty} {e : Exp} (h : Program decl e) : e ≠ .nil ∧ ∀ x y, e ≠ .consE x y := by
  unfold Program at h
  cases h <;> exact ⟨by simp, by simp⟩

theorem checkR_data {decl : String → Option Ty} {tenv : List (String × Ty)} (hd : Declares tenv decl) (user : List (String × Rule))
    {e : Exp} {t : RTy} (hl : Literal decl e t) : ∀ {s : Subst} {σ : St}, Between tenv s σ →
    (∀ n s' σ', checkR user n e t [] s σ = some (.succ s', σ') → DataType decl e t ∧ Between tenv s' σ') ∧
    (DataType decl e t → ∃ n s' σ', ∀ m, n ≤ m → checkR user m e t [] s σ = some (.succ s', σ')) := by
  induction hl with
  | @leaf e t hp hg hpl =>
    intro s σ hb
    constructor
    · intro n s' σ' h
      cases n with
      | zero => cases h
      | succ n =>
        obtain ⟨m, rfl, hm⟩ := check_plain hpl (show check n e t [] s σ = _ from h)
        obtain ⟨q, ht, _⟩ := checkH_sound tenv decl (fun x T h1 h2 h3 => (hd x T).mpr ⟨h1, h2, h3⟩) m (env := []) (hp.calls hd)
          (hb.at_ hg hpl) hb.tenv hm (fun h => by cases h)
        obtain ⟨θ, h1, _⟩ := q.wf.solution
        have := ht θ h1
        rw [inst_ground hg] at this
        exact ⟨.base this, (hb.at_ hg hpl).next q trivial (fun y hy => by cases hy), by rw [q.tenv, hb.tenv]⟩
    · intro h
      cases h with
      | base h =>
        obtain ⟨θ, hθ, _⟩ := hb.pre.wf.solution
        obtain ⟨k, s1, σ1, _, c, _⟩ := check_complete (tenv := tenv)
          (fun x T h => ⟨((hd x T).mp h).1, ((hd x T).mp h).2.1⟩) h (env := []) (t := t) (s := s) (σ := σ)
          (θ := θ) rfl (inst_ground hg).symm ⟨hb.pre.wf, hb.pre.sub, hb.pre.env, (hb.at_ hg hpl).ty⟩ hb.tenv hθ
        refine ⟨k + 1, s1, σ1, fun m hm => ?_⟩
        obtain ⟨m, rfl⟩ : ∃ m', m = m' + 1 := ⟨m - 1, by omega⟩
        exact c m (by omega)
  | @leafTuple e a b hp =>
    intro s σ _
    obtain ⟨h1, h2⟩ := program_not_data hp
    constructor
    · intro n s' σ' h
      cases n with
      | zero => cases h
      | succ n =>
        unfold checkR at h
        cases e <;> first | exact absurd rfl (h2 _ _) | cases h
    · intro h
      cases h with
      | tuple => exact absurd rfl (h2 _ _)
  | @nilBase t hg hpl =>
    intro s σ _
    constructor
    · intro n s' σ' h
      cases n with
      | zero => cases h
      | succ n =>
        have h : check n .nil t [] s σ = _ := h
        obtain ⟨m, rfl, hm⟩ := check_plain hpl h
        cases m with
        | zero => cases hm
        | succ m =>
          unfold checkH at hm
          cases t with
          | var y => exact absurd rfl (hg y)
          | con => cases hm
          | thunk => cases hm
          | arrow => cases hm
          | list => cases hpl
    · intro h
      cases h with
      | base h => cases h
  | nilList =>
    intro s σ hb
    refine ⟨fun n s' σ' h => ?_, fun _ => ⟨1, s, σ, fun m hm => ?_⟩⟩
    · cases n with
      | zero => cases h
      | succ n => cases h; exact ⟨.nil, hb⟩
    · obtain ⟨m, rfl⟩ : ∃ m', m = m' + 1 := ⟨m - 1, by omega⟩
      rfl
  | nilTuple =>
    intro s σ _
    refine ⟨fun n s' σ' h => ?_, fun h => by cases h⟩
    cases n <;> cases h
  | @cons x y a _ _ ih1 ih2 =>
    intro s σ hb
    constructor
    · intro n s' σ' h
      cases n with
      | zero => cases h
      | succ n =>
        simp only [checkR] at h
        obtain ⟨s1, σ1, h1, h2⟩ := bindS_succ h
        obtain ⟨a1, b1⟩ := (ih1 hb).1 n s1 σ1 h1
        obtain ⟨a2, b2⟩ := (ih2 b1).1 n s' σ' h2
        exact ⟨.cons a1 a2, b2⟩
    · intro h
      cases h with
      | cons hx hy =>
        obtain ⟨n1, s1, σ1, h1⟩ := (ih1 hb).2 hx
        obtain ⟨_, b1⟩ := (ih1 hb).1 n1 s1 σ1 (h1 n1 (Nat.le_refl _))
        obtain ⟨n2, s2, σ2, h2⟩ := (ih2 b1).2 hy
        refine ⟨max n1 n2 + 1, s2, σ2, fun m hm => ?_⟩
        obtain ⟨m, rfl⟩ : ∃ m', m = m' + 1 := ⟨m - 1, by omega⟩
        simp only [checkR, h1 m (by omega), bindS, h2 m (by omega)]
  | @tuple x y a b _ _ ih1 ih2 =>
    intro s σ hb
    constructor
    · intro n s' σ' h
      cases n with
      | zero => cases h
      | succ n =>
        simp only [checkR] at h
        obtain ⟨s1, σ1, h1, h2⟩ := bindS_succ h
        obtain ⟨a1, b1⟩ := (ih1 hb).1 n s1 σ1 h1
        obtain ⟨a2, b2⟩ := (ih2 b1).1 n s' σ' h2
        exact ⟨.tuple a1 a2, b2⟩
    · intro h
      cases h with
      | tuple hx hy =>
        obtain ⟨n1, s1, σ1, h1⟩ := (ih1 hb).2 hx
        obtain ⟨_, b1⟩ := (ih1 hb).1 n1 s1 σ1 (h1 n1 (Nat.le_refl _))
        obtain ⟨n2, s2, σ2, h2⟩ := (ih2 b1).2 hy
        refine ⟨max n1 n2 + 1, s2, σ2, fun m hm => ?_⟩
        obtain ⟨m, rfl⟩ : ∃ m', m = m' + 1 := ⟨m - 1, by omega⟩
        simp only [checkR, h1 m (by omega), bindS, h2 m (by omega)]
  | @maybe e a _ ih =>
    intro s σ hb
    by_cases he : e = .nil
    · subst he
      refine ⟨fun n s' σ' h => ?_, fun _ => ⟨1, s, σ, fun m hm => ?_⟩⟩
      · cases n with
        | zero => cases h
        | succ n => cases h; exact ⟨.nothing, hb⟩
      · obtain ⟨m, rfl⟩ : ∃ m', m = m' + 1 := ⟨m - 1, by omega⟩
        rfl
    · have step : ∀ n, checkR user (n + 1) e (.maybe a) [] s σ = checkR user n e a [] s σ := by
        intro n
        conv => lhs; unfold checkR
        cases e <;> first | rfl | exact absurd rfl he
      constructor
      · intro n s' σ' h
        cases n with
        | zero => cases h
        | succ n =>
          rw [step] at h
          obtain ⟨a1, b1⟩ := (ih hb).1 n s' σ' h
          exact ⟨.just a1, b1⟩
      · intro h
        cases h with
        | nothing => exact absurd rfl he
        | just h =>
          obtain ⟨n, s', σ', h⟩ := (ih hb).2 h
          refine ⟨n + 1, s', σ', fun m hm => ?_⟩
          obtain ⟨m, rfl⟩ : ∃ m', m = m' + 1 := ⟨m - 1, by omega⟩
          rw [step]
          exact h m (by omega)

/-- C70, data. A literal is accepted as a type made with `list`, `tuple` and `maybe` exactly when it has that type. Missing: expressions
other than pairs and `()` as lists, pairs as simple types, and types with variables. -/
theorem C70_data_partial (decl : String → Option Ty) (σ : St) (user : List (String × Rule)) (e : Exp) (t : RTy) (hd : Declares σ.tenv decl)
    (hl : Literal decl e t) : (∃ n s σ', checkR user n e t [] [] σ = some (.succ s, σ')) ↔ DataType decl e t := by
  have h := checkR_data hd user hl (s := []) (σ := σ) ⟨pre_start trivial fun y hy => (by cases hy), rfl⟩
  constructor
  · rintro ⟨n, s, σ', hn⟩
    exact (h.1 n s σ' hn).1
  · intro ht
    obtain ⟨n, s, σ', hn⟩ := h.2 ht
    exact ⟨n, s, σ', hn n (Nat.le_refl _)⟩

/-- C70, rules that a program adds: the rule of a type is the one that was added for it last; the other types keep theirs. -/
theorem C70_rule (c : String) (f : Rule) (user : List (String × Rule)) (n : Nat) (e : Exp) (env : List (String × Ty)) (s : Subst) (σ : St) :
    checkR (deftype c f user) (n + 1) e (.user c) env s σ = f e env s σ ∧
    ∀ d, d ≠ c → checkR (deftype c f user) (n + 1) e (.user d) env s σ = checkR user (n + 1) e (.user d) env s σ := by
  refine ⟨by simp [checkR, deftype, look], fun d hd => ?_⟩
  simp [checkR, deftype, look, hd]

/-- C70 is false of the code: a variable of a tuple type is not accepted as that type; the checker fails. -/
theorem C70_tuple_variable_wrong (user : List (String × Rule)) (x : String) (a b : RTy) (env : List (String × Ty)) (s : Subst) (σ : St)
    (n : Nat) : checkR user n (.var x) (.tuple a b) env s σ = none := by
  cases n <;> rfl

/-- C70 is false of the code: every call is accepted as a monad of any type, here `(+ 1 2)`, a number. -/
theorem C70_monad_wrong (user : List (String × Rule)) (a : RTy) (n : Nat) (s : Subst) (σ : St) :
    checkR user (n + 1) (call2 "+" (.num 1) (.num 2)) (.monad a) [] s σ = some (.succ s, σ) ∧
      ∀ t, HasType decl0 [] (call2 "+" (.num 1) (.num 2)) t → t = .con "int" := by
  refine ⟨rfl, fun t h => ?_⟩
  unfold call2 at h
  cases h with
  | app h1 _ =>
    cases h1 with
    | app h2 _ =>
      cases h2 with
      | loc h => simp [look] at h
      | glob _ h => simp [decl0] at h; exact h.2.2.symm

/-- non-vacuity: `(cons (cons 'a 1) (cons (cons 'b ()) ()))` is a literal next to `(list (tuple symbol (maybe int)))`, and has the type -/
example : Literal decl0 (.consE (.consE (.quote "a") (.num 1)) (.consE (.consE (.quote "b") .nil) .nil))
      (.list (.tuple (.base (.con "symbol")) (.maybe (.base (.con "int"))))) ∧
    DataType decl0 (.consE (.consE (.quote "a") (.num 1)) (.consE (.consE (.quote "b") .nil) .nil))
      (.list (.tuple (.base (.con "symbol")) (.maybe (.base (.con "int"))))) := by
  have g : ∀ c, (Ty.con c).ground := fun c y h => by cases h
  exact ⟨.cons (.tuple (.leaf .quote (g _) trivial) (.maybe (.leaf .num (g _) trivial)))
    (.cons (.tuple (.leaf .quote (g _) trivial) (.maybe (.nilBase (g _) trivial))) .nilList),
    .cons (.tuple (.base .quote) (.just (.base .num))) (.cons (.tuple (.base .quote) .nothing) .nil)⟩

/-- non-vacuity: `(cons (cons 'a 1) (cons (cons 'b (+ 1 2)) ()))` is a list of tuples of a symbol and maybe a number -/
example : ((checkR [] 50 (.consE (.consE (.quote "a") (.num 1)) (.consE (.consE (.quote "b") (call2 "+" (.num 1) (.num 2)))
      (.consE (.consE (.quote "c") .nil) .nil)))
      (.list (.tuple (.base (.con "symbol")) (.maybe (.base (.con "int"))))) [] [] σ0).map fun r => r.1 matches .succ _) = some true ∧
    ((checkR [] 50 (.consE (.consE (.quote "a") (.bool true)) .nil)
      (.list (.tuple (.base (.con "symbol")) (.maybe (.base (.con "int"))))) [] [] σ0).map fun r => r.1 matches .succ _) = some false := by
  decide

end Cora.Infer
