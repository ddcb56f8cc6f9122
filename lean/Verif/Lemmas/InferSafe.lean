import Verif.Lemmas.InferCheck
/-
Well typed expressions do not go wrong.
-/
open Spec.Types
namespace Cora.Infer

/-- values of a type -/
inductive VTy (decl : String → Option Ty) : Val → Ty → Prop
  | int {n} : VTy decl (.int n) (.con "int")
  | bool {b} : VTy decl (.bool b) (.con "bool")
  | str {s} : VTy decl (.str s) (.con "string")
  | sym {x} : VTy decl (.sym x) (.con "symbol")
  | clo0 {e env Γ t} : HasType decl Γ e t →
      (∀ y, look y Γ = none ↔ look y env = none) →
      (∀ y t v, look y Γ = some t → look y env = some v → VTy decl v t) →
      VTy decl (.clo0 e env) (.thunk t)
  | clo {x e env Γ a b} : HasType decl ((x, a) :: Γ) e b →
      (∀ y, look y Γ = none ↔ look y env = none) →
      (∀ y t v, look y Γ = some t → look y env = some v → VTy decl v t) →
      VTy decl (.clo x e env) (.arrow a b)
  | ext {g args T a b} : decl g = some T → T.drop args.length = .arrow a b → VTy decl (.ext g args) (.arrow a b)

/-- an environment whose values have the types -/
def EnvTy (decl : String → Option Ty) (env : List (String × Val)) (Γ : List (String × Ty)) : Prop :=
  (∀ y, look y Γ = none ↔ look y env = none) ∧ (∀ y t v, look y Γ = some t → look y env = some v → VTy decl v t)

theorem EnvTy.cons {decl : String → Option Ty} {env : List (String × Val)} {Γ : List (String × Ty)} (h : EnvTy decl env Γ)
    {x : String} {v : Val} {t : Ty} (hv : VTy decl v t) : EnvTy decl ((x, v) :: env) ((x, t) :: Γ) := by
  constructor
  · intro y
    simp only [look]
    split
    · simp
    · exact h.1 y
  · intro y t' v' hy hy'
    simp only [look] at hy hy'
    split at hy
    · rename_i he; rw [if_pos he] at hy'; cases hy; cases hy'; exact hv
    · rename_i hne; rw [if_neg hne] at hy'; exact h.2 y t' v' hy hy'

theorem VTy.kind {decl : String → Option Ty} {v : Val} {t : Ty} (h : VTy decl v t) : v.kind t = true := by
  cases h <;> simp [Val.kind]

theorem kind_VTy {decl : String → Option Ty} {v : Val} {c : String} (h : v.kind (.con c) = true) : VTy decl v (.con c) := by
  cases v <;> simp only [Val.kind, decide_eq_true_eq, Bool.false_eq_true] at h
  · subst h; exact .int
  · subst h; exact .bool
  · subst h; exact .str
  · subst h; exact .sym

/-- what evaluation may come to -/
def Safe (decl : String → Option Ty) (t : Ty) : Out → Prop
  | .val v => VTy decl v t
  | .wrong => False
  | .more => True

theorem drop_succ {T a b : Ty} {n : Nat} (h : T.drop n = .arrow a b) : T.drop (n + 1) = b := by
  induction n generalizing T with
  | zero => simp only [Ty.drop] at h; subst h; rfl
  | succ n ih =>
    cases T with
    | arrow c d => simp only [Ty.drop] at h ⊢; exact ih h
    | var _ => cases h
    | con _ => cases h
    | thunk _ => cases h
    | list _ => cases h

theorem drop_fine {T : Ty} (hg : T.ground) (hp : T.plain) (n : Nat) : (T.drop n).ground ∧ (T.drop n).plain := by
  induction n generalizing T with
  | zero => exact ⟨hg, hp⟩
  | succ n ih =>
    cases T with
    | arrow c d => exact ih (fun y hy => hg y (.inr hy)) hp.2
    | var _ => exact ⟨hg, hp⟩
    | con _ => exact ⟨hg, hp⟩
    | thunk _ => exact ⟨hg, hp⟩
    | list _ => exact ⟨hg, hp⟩

/-- the declared types are built from constants and functions -/
def Mono (decl : String → Option Ty) : Prop := ∀ x T, decl x = some T → T.ground ∧ T.plain

/-- declared functions keep what their types promise: with all arguments they give a value of the kind of the result -/
def Keeps (decl : String → Option Ty) (G : String → List Val → Option Val) : Prop :=
  ∀ g T args c v, decl g = some T → T.drop args.length = .con c → G g args = some v → v.kind (.con c) = true

theorem eval_safe {decl : String → Option Ty} {G : String → List Val → Option Val} (hm : Mono decl) (hG : Keeps decl G) (k : Nat) :
    ∀ {env : List (String × Val)} {Γ : List (String × Ty)} {e : Exp} {t : Ty}, HasType decl Γ e t → EnvTy decl env Γ →
      Safe decl t (eval decl G k env e) := by
  induction k with
  | zero => intro env Γ e t _ _; simp only [eval, Safe]
  | succ k ih =>
    intro env Γ e t h he
    cases h with
    | num => exact VTy.int
    | bool => exact VTy.bool
    | str => exact VTy.str
    | quote => exact VTy.sym
    | @loc _ x _ hx =>
      cases h1 : look x env with
      | none => rw [(he.1 x).mpr h1] at hx; cases hx
      | some v =>
        simp only [eval, h1]
        exact he.2 _ _ _ hx h1
    | @glob _ x _ hx hd =>
      simp only [eval, (he.1 _).mp hx, hd]
      have hf := hm _ _ hd
      cases t with
      | var v => exact absurd rfl (hf.1 v)
      | thunk _ => exact hf.2.elim
      | list _ => exact hf.2.elim
      | arrow a b => exact VTy.ext hd rfl
      | con c =>
        dsimp only
        cases hg : G x [] with
        | none => trivial
        | some v => exact kind_VTy (hG _ _ [] _ _ hd rfl hg)
    | @ite _ c a b _ hc ha hb =>
      have h1 := ih hc he
      simp only [eval]
      cases hr : eval decl G k env c with
      | wrong => rw [hr] at h1; exact h1.elim
      | more => trivial
      | val v =>
        rw [hr] at h1
        generalize ht : Ty.con "bool" = t' at h1
        cases h1 with
        | @bool b =>
          cases b with
          | true => exact ih ha he
          | false => exact ih hb he
        | int => exact absurd ht (by decide)
        | str => exact absurd ht (by decide)
        | sym => exact absurd ht (by decide)
        | clo0 => cases ht
        | clo => cases ht
        | ext => cases ht
    | @seq _ a b _ u ha hb =>
      have h1 := ih ha he
      simp only [eval]
      cases hr : eval decl G k env a with
      | wrong => rw [hr] at h1; exact h1.elim
      | more => trivial
      | val v => exact ih hb he
    | @lam0 _ e t hb => exact VTy.clo0 hb he.1 he.2
    | @app0 _ f _ hf =>
      have h1 := ih hf he
      simp only [eval]
      cases hr : eval decl G k env f with
      | wrong => rw [hr] at h1; exact h1.elim
      | more => trivial
      | val v =>
        rw [hr] at h1
        cases h1 with
        | clo0 hb k1 k2 => exact ih hb ⟨k1, k2⟩
    | @lam _ x e a b hb => exact VTy.clo hb he.1 he.2
    | @letE _ x e e' a b ha hb =>
      have h1 := ih ha he
      simp only [eval]
      cases hr : eval decl G k env e with
      | wrong => rw [hr] at h1; exact h1.elim
      | more => trivial
      | val v => rw [hr] at h1; exact ih hb (he.cons h1)
    | @app _ f e a b hf ha =>
      have h1 := ih hf he
      have h2 := ih ha he
      simp only [eval]
      cases hr : eval decl G k env f with
      | wrong => rw [hr] at h1; exact h1.elim
      | more => trivial
      | val g =>
        rw [hr] at h1
        dsimp only
        cases hs : eval decl G k env e with
        | wrong => rw [hs] at h2; exact h2.elim
        | more => trivial
        | val v =>
          rw [hs] at h2
          dsimp only
          cases h1 with
          | clo hb k1 k2 => exact ih hb (EnvTy.cons ⟨k1, k2⟩ h2)
          | @ext g args T _ _ hd hdrop =>
            have hk : v.kind a = true := h2.kind
            simp only [callExt, hd, hdrop, hk, if_true]
            have hl : T.drop (args ++ [v]).length = t := by
              rw [List.length_append]; exact drop_succ hdrop
            have hf := hm _ _ hd
            have hf := drop_fine hf.1 hf.2 (args ++ [v]).length
            rw [hl] at hf
            cases t with
            | var v => exact absurd rfl (hf.1 v)
            | thunk _ => exact hf.2.elim
            | list _ => exact hf.2.elim
            | arrow a b => exact VTy.ext hd hl
            | con c =>
              dsimp only
              cases hg : G g (args ++ [v]) with
              | none => trivial
              | some r => exact kind_VTy (hG _ _ _ _ _ hd hl hg)

end Cora.Infer
