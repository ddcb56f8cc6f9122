import Verif.Lemmas.InferTotal
import Verif.Lemmas.InferMono
/-
Definitions: the value of a definition is checked with the declarations as local environment.
-/
open Spec.Types
namespace Cora.Infer

theorem bindS_some {a : Option (URes × St)} {f : Subst → St → Option (URes × St)} {r : URes} {σ' : St}
    (h : bindS a f = some (r, σ')) : a = some (.fail, σ') ∨ ∃ s σ, a = some (.succ s, σ) ∧ f s σ = some (r, σ') := by
  match a, h with
  | some (.fail, σ), h => cases h; exact .inl rfl
  | some (.succ s, σ), h => exact .inr ⟨s, σ, rfl, h⟩

theorem bindS_congr {a : Option (URes × St)} {f g : Subst → St → Option (URes × St)}
    (h : ∀ s σ, a = some (.succ s, σ) → f s σ = g s σ) : bindS a f = bindS a g := by
  match a, h with
  | none, _ => rfl
  | some (.fail, σ), _ => rfl
  | some (.succ s, σ), h => exact h s σ rfl

theorem look_append {α : Type} (x : String) (a b : List (String × α)) :
    look x (a ++ b) = match look x a with
      | some t => some t
      | none => look x b := by
  induction a with
  | nil => rfl
  | cons p a ih =>
    obtain ⟨y, t⟩ := p
    simp only [List.cons_append, look]
    split
    · rfl
    · exact ih

theorem unifyS_tenv {n : Nat} {x y : Ty} {s : Subst} {σ σ' : St} {r : URes} (h : unifyS n x y s σ = some (r, σ')) :
    σ'.tenv = σ.tenv := by
  simp only [unifyS, Option.map_eq_some_iff, Prod.mk.injEq] at h
  obtain ⟨q, _, _, h⟩ := h
  rw [h]

/-- a call with the declarations behind the local environment answers the same, and changes no declaration -/
def Same (tenv : List (String × Ty)) (f : List (String × Ty) → Option (URes × St)) (env : List (String × Ty)) : Prop :=
  f (env ++ tenv) = f env ∧ ∀ r σ', f env = some (r, σ') → σ'.tenv = tenv

theorem same_bind {tenv env : List (String × Ty)} {f : List (String × Ty) → Option (URes × St)}
    {g : List (String × Ty) → Subst → St → Option (URes × St)} (hf : Same tenv f env)
    (hg : ∀ s σ, σ.tenv = tenv → Same tenv (fun e => g e s σ) env) : Same tenv (fun e => bindS (f e) (g e)) env := by
  constructor
  · show bindS (f (env ++ tenv)) (g (env ++ tenv)) = bindS (f env) (g env)
    rw [hf.1]
    exact bindS_congr fun s σ h => (hg s σ (hf.2 _ _ h)).1
  · intro r σ' h
    rcases bindS_some h with h | ⟨s, σ, h1, h2⟩
    · exact hf.2 _ _ h
    · exact (hg s σ (hf.2 _ _ h1)).2 _ _ h2

theorem same_unify {tenv env : List (String × Ty)} {n : Nat} {x y : Ty} {s : Subst} {σ : St} (h : σ.tenv = tenv) :
    Same tenv (fun _ => unifyS n x y s σ) env :=
  ⟨rfl, fun _ _ hr => by rw [unifyS_tenv hr, h]⟩

theorem same_check {tenv : List (String × Ty)} {d : String → Prop} (n : Nat) : ∀ {L : List String} {op : Bool} {e : Exp},
    Calls d L op e → ∀ (t : Ty) (env : List (String × Ty)) (s : Subst) (σ : St), σ.tenv = tenv →
      Same tenv (fun env => checkH n e t env s σ) env ∧ Same tenv (fun env => check n e t env s σ) env := by
  induction n with
  | zero =>
    intro L op e _ t env s σ _
    exact ⟨⟨rfl, fun _ _ h => (by cases h)⟩, ⟨rfl, fun _ _ h => (by cases h)⟩⟩
  | succ n ih =>
    intro L op e hc t env s σ hσ
    constructor
    · cases hc with
      | num => simpa only [checkH] using same_unify hσ
      | bool => simpa only [checkH] using same_unify hσ
      | str => simpa only [checkH] using same_unify hσ
      | quote => simpa only [checkH] using same_unify hσ
      | @loc L x _ | @glob L x _ _ =>
        simp only [checkH]
        constructor
        · dsimp only
          rw [look_append, hσ]
          cases look x env with
          | some T => rfl
          | none => cases look x tenv <;> rfl
        · intro r σ' h
          dsimp only at h
          split at h
          · rw [unifyS_tenv h, hσ]
          · split at h
            · rw [unifyS_tenv h, hσ]
            · cases h; exact hσ
      | ite h1 h2 h3 =>
        simp only [checkH]
        exact same_bind (ih h1 _ env s σ hσ).1 fun s1 σ1 hσ1 => same_bind (ih h2 t env s1 σ1 hσ1).2 fun s2 σ2 hσ2 =>
          (ih h3 t env s2 σ2 hσ2).2
      | seq h1 _ h2 =>
        simp only [checkH]
        exact same_bind (ih h1 _ env s (σ.tvars 1) hσ).1 fun s1 σ1 hσ1 => (ih h2 t env s σ1 hσ1).1
      | @lam L x e h1 =>
        simp only [checkH]
        exact same_bind (ih h1 _ ((x, .var σ.next) :: env) s (σ.tvars 2) hσ).2 fun s1 σ1 hσ1 => same_unify hσ1
      | @letE L x a b h1 h2 =>
        simp only [checkH]
        exact same_bind (ih h1 _ env s (σ.tvars 1) hσ).2 fun s1 σ1 hσ1 => (ih h2 t ((x, .var σ.next) :: env) s1 σ1 hσ1).2
      | @app L f x op h1 h2 =>
        simp only [checkH]
        refine same_bind (ih h1 _ env s (σ.tvars 2) hσ).1 fun s1 σ1 hσ1 => ?_
        cases applySubst n (.var σ.next) s1 with
        | none => exact ⟨rfl, fun _ _ h => by cases h⟩
        | some A =>
          refine same_bind (ih h2 A env s1 σ1 hσ1).2 fun s2 σ2 hσ2 => same_bind (same_unify hσ2) fun s3 σ3 hσ3 => ?_
          exact ⟨rfl, fun _ _ h => by cases h; exact hσ3⟩
    · have key : ∀ t env, check (n + 1) e t env s σ = checkH n e t env s σ := by
        intro t env
        cases t with
        | list a => cases hc <;> simp only [check]
        | _ => simp only [check]
      simp only [key]
      exact (ih hc t env s σ hσ).1

/-- with the declarations as local environment -/
theorem check_decls {d : String → Prop} {n : Nat} {L : List String} {op : Bool} {e : Exp} (hc : Calls d L op e) (t : Ty) (s : Subst)
    (σ : St) : check n e t σ.tenv s σ = check n e t [] s σ := by
  have := (same_check (tenv := σ.tenv) n hc t [] s σ rfl).2.1
  simpa using this

end Cora.Infer
