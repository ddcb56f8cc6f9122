import Verif.Lemmas.Infer
/-
More fuel does not change the answer of the checker.
-/
open Spec.Types
namespace Cora.Infer

theorem bindS_mono {a a' : Option (URes × St)} {f f' : Subst → St → Option (URes × St)} {r : URes × St}
    (h : bindS a f = some r) (ha : ∀ r, a = some r → a' = some r) (hf : ∀ s σ r, f s σ = some r → f' s σ = some r) :
    bindS a' f' = some r := by
  match a, h with
  | some (.fail, σ), h => rw [ha _ rfl]; exact h
  | some (.succ s, σ), h => rw [ha _ rfl]; exact hf _ _ _ h

theorem unifyS_mono {n m : Nat} (hm : n ≤ m) {x y : Ty} {s : Subst} {σ : St} {r : URes × St} (h : unifyS n x y s σ = some r) :
    unifyS m x y s σ = some r := by
  simp only [unifyS, Option.map_eq_some_iff] at h ⊢
  obtain ⟨q, h1, h2⟩ := h
  exact ⟨q, unify_mono hm h1, h2⟩

theorem check_mono_both (n : Nat) : ∀ {m : Nat}, n ≤ m → ∀ (e : Exp) (t : Ty) (env : List (String × Ty)) (s : Subst) (σ : St)
    (r : URes × St), (checkH n e t env s σ = some r → checkH m e t env s σ = some r) ∧
      (check n e t env s σ = some r → check m e t env s σ = some r) := by
  induction n with
  | zero => intro m hm e t env s σ r; exact ⟨fun h => (by cases h), fun h => (by cases h)⟩
  | succ n ih =>
    intro m hm e t env s σ r
    obtain ⟨m, rfl⟩ : ∃ k, m = k + 1 := ⟨m - 1, by omega⟩
    have hm : n ≤ m := by omega
    have hH : ∀ e t env s σ r, checkH n e t env s σ = some r → checkH m e t env s σ = some r :=
      fun e t env s σ r => (ih hm e t env s σ r).1
    have hC : ∀ e t env s σ r, check n e t env s σ = some r → check m e t env s σ = some r :=
      fun e t env s σ r => (ih hm e t env s σ r).2
    constructor
    · intro h
      cases e with
      | nil => exact h
      | num => exact unifyS_mono hm h
      | bool => exact unifyS_mono hm h
      | str => exact unifyS_mono hm h
      | quote => exact unifyS_mono hm h
      | var x =>
        simp only [checkH] at h ⊢
        split at h
        · exact unifyS_mono hm h
        · split at h
          · exact unifyS_mono hm h
          · exact h
      | ite a b c =>
        simp only [checkH] at h ⊢
        exact bindS_mono h (hH _ _ _ _ _) fun s σ r h => bindS_mono h (hC _ _ _ _ _) fun s σ r h => hC _ _ _ _ _ _ h
      | seq a b =>
        simp only [checkH] at h ⊢
        exact bindS_mono h (hH _ _ _ _ _) fun _ σ r h => hH _ _ _ _ _ _ h
      | lam0 e =>
        simp only [checkH] at h ⊢
        exact bindS_mono h (hC _ _ _ _ _) fun _ σ r h => unifyS_mono hm h
      | lam x e =>
        simp only [checkH] at h ⊢
        exact bindS_mono h (hC _ _ _ _ _) fun _ σ r h => unifyS_mono hm h
      | letE x a b =>
        simp only [checkH] at h ⊢
        exact bindS_mono h (hC _ _ _ _ _) fun _ σ r h => hC _ _ _ _ _ _ h
      | set x v =>
        simp only [checkH] at h ⊢
        split at h
        · refine bindS_mono h (hC _ _ _ _ _) fun s1 σ1 r h => ?_
          split at h
          · cases h
          · rename_i T hT
            rw [applySubst_mono hm hT]
            exact h
        · exact hC _ _ _ _ _ _ h
      | app0 f => exact hH _ _ _ _ _ _ h
      | app f x =>
        simp only [checkH] at h ⊢
        refine bindS_mono h (hH _ _ _ _ _) fun s1 σ1 r h => ?_
        split at h
        · cases h
        · rename_i T hT
          rw [applySubst_mono hm hT]
          exact bindS_mono h (hC _ _ _ _ _) fun s σ r h => bindS_mono h (fun r h => unifyS_mono hm h) fun s σ r h => h
      | consE x y => exact hC _ _ _ _ _ _ h
    · intro h
      cases t with
      | list a =>
        cases e with
        | nil => exact h
        | consE x y =>
          simp only [check] at h ⊢
          exact bindS_mono h (hC _ _ _ _ _) fun s σ r h => hC _ _ _ _ _ _ h
        | _ => simp only [check] at h ⊢; exact hH _ _ _ _ _ _ h
      | _ => simp only [check] at h ⊢; exact hH _ _ _ _ _ _ h

theorem check_mono {n m : Nat} (hm : n ≤ m) {e : Exp} {t : Ty} {env : List (String × Ty)} {s : Subst} {σ : St} {r : URes × St}
    (h : check n e t env s σ = some r) : check m e t env s σ = some r :=
  (check_mono_both n hm e t env s σ r).2 h

end Cora.Infer
