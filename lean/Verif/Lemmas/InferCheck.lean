import Verif.Lemmas.Infer
/-
Lemmas about the type checker.
-/
open Spec.Types
namespace Cora.Infer

theorem bindS_succ {o : Option (URes × St)} {f : Subst → St → Option (URes × St)} {s' : Subst} {σ' : St}
    (h : bindS o f = some (.succ s', σ')) : ∃ s1 σ1, o = some (.succ s1, σ1) ∧ f s1 σ1 = some (.succ s', σ') := by
  cases o with
  | none => cases h
  | some p =>
    obtain ⟨r, σ1⟩ := p
    cases r with
    | fail => simp [bindS] at h
    | succ s1 => exact ⟨s1, σ1, rfl, h⟩

theorem unifyS_succ {n : Nat} {x y : Ty} {s s' : Subst} {σ σ' : St} (h : unifyS n x y s σ = some (.succ s', σ')) :
    unify n x y s = some (.succ s') ∧ σ' = σ := by
  simp only [unifyS, Option.map_eq_some_iff, Prod.mk.injEq] at h
  obtain ⟨r, h1, h2, h3⟩ := h
  exact ⟨by rw [h1, h2], h3.symm⟩

theorem check_plain {n : Nat} {e : Exp} {t : Ty} {env : List (String × Ty)} {s : Subst} {σ : St} {r : URes × St} (ht : t.plain)
    (h : check n e t env s σ = some r) : ∃ m, n = m + 1 ∧ checkH m e t env s σ = some r := by
  cases n with
  | zero => cases h
  | succ m =>
    refine ⟨m, rfl, ?_⟩
    cases t with
    | list a => cases ht
    | var _ => exact h
    | con _ => exact h
    | thunk _ => exact h
    | arrow _ _ => exact h

/-- an environment with types put for the variables -/
def instEnv (θ : Nat → Ty) (env : List (String × Ty)) : List (String × Ty) := env.map fun p => (p.1, p.2.inst θ)

theorem look_inst {θ : Nat → Ty} {x : String} {env : List (String × Ty)} :
    look x (instEnv θ env) = (look x env).map (·.inst θ) := by
  induction env with
  | nil => rfl
  | cons p r ih =>
    obtain ⟨y, t⟩ := p
    simp only [instEnv, List.map_cons, look] at ih ⊢
    split
    · rfl
    · exact ih

theorem look_none {x : String} {env : List (String × Ty)} (h : x ∉ env.map (·.1)) : look x env = none := by
  induction env with
  | nil => rfl
  | cons p r ih =>
    obtain ⟨y, t⟩ := p
    simp only [List.map_cons, List.mem_cons, not_or] at h
    simp only [look, if_neg h.1, ih h.2]

theorem look_some {x : String} {env : List (String × Ty)} (h : x ∈ env.map (·.1)) : ∃ t, look x env = some t := by
  induction env with
  | nil => cases h
  | cons p r ih =>
    obtain ⟨y, t⟩ := p
    simp only [look]
    split
    · exact ⟨t, rfl⟩
    · rename_i hne
      rcases List.mem_cons.mp h with e | h
      · exact absurd e hne
      · exact ih h

theorem look_mem {x : String} {env : List (String × Ty)} {t : Ty} (h : look x env = some t) : (x, t) ∈ env := by
  induction env with
  | nil => cases h
  | cons p r ih =>
    obtain ⟨y, u⟩ := p
    simp only [look] at h
    split at h
    · rename_i e; cases h; subst e; exact List.mem_cons_self
    · exact List.mem_cons_of_mem _ (ih h)

theorem inst_congr {θ θ' : Nat → Ty} {t : Ty} (h : ∀ y, t.has y → θ y = θ' y) : t.inst θ = t.inst θ' := by
  induction t with
  | var v => exact h v rfl
  | con c => rfl
  | thunk t ih => simp only [Ty.inst, ih h]
  | list t ih => simp only [Ty.inst, ih h]
  | arrow a b iha ihb => simp only [Ty.inst, iha fun y hy => h y (.inl hy), ihb fun y hy => h y (.inr hy)]

theorem inst_ground {θ : Nat → Ty} {t : Ty} (h : t.ground) : t.inst θ = t := by
  induction t with
  | var v => exact absurd rfl (h v)
  | con c => rfl
  | thunk t ih => simp only [Ty.inst, ih h]
  | list t ih => simp only [Ty.inst, ih h]
  | arrow a b iha ihb => simp only [Ty.inst, iha fun y hy => h y (.inl hy), ihb fun y hy => h y (.inr hy)]

theorem ground_applySubst {n : Nat} {t t' : Ty} {s : Subst} (hg : t.ground) (h : applySubst n t s = some t') : t' = t := by
  obtain ⟨m, e⟩ := applySubst_self (s := s) t fun y hy => absurd hy (hg y)
  exact applySubst_det h e

/-- the variables that occur in a substitution are in `V` -/
def SubIn (V : Nat → Prop) (s : Subst) : Prop := ∀ p ∈ s, V p.1 ∧ ∀ y, p.2.has y → V y

/-- the variables that occur in an environment are in `V` -/
def EnvIn (V : Nat → Prop) (env : List (String × Ty)) : Prop := ∀ p ∈ env, ∀ y, p.2.has y → V y

/-- what is true of the parts of a call of the checker -/
structure Pre (env : List (String × Ty)) (t : Ty) (s : Subst) (σ : St) : Prop where
  wf : WF s
  plain : ∀ p ∈ s, p.2.plain
  sub : SubIn (· < σ.next) s
  envPlain : ∀ p ∈ env, p.2.plain
  env : EnvIn (· < σ.next) env
  tyPlain : t.plain
  ty : ∀ y, t.has y → y < σ.next

/-- what the checker does to the substitution -/
structure Post (env : List (String × Ty)) (t : Ty) (s : Subst) (σ : St) (s' : Subst) (σ' : St) : Prop where
  tenv : σ'.tenv = σ.tenv
  next : σ.next ≤ σ'.next
  wf : WF s'
  plain : ∀ p ∈ s', p.2.plain
  ext : ∃ new, s' = new ++ s
  sub : ∀ V : Nat → Prop, (∀ y, σ.next ≤ y → y < σ'.next → V y) → (∀ y, t.has y → V y) → EnvIn V env → SubIn V s → SubIn V s'

theorem Post.bound {env : List (String × Ty)} {t : Ty} {s s' : Subst} {σ σ' : St} (hp : Pre env t s σ)
    (h : Post env t s σ s' σ') : SubIn (· < σ'.next) s' := by
  have := h.next
  refine h.sub _ (fun y _ h => h) (fun y hy => ?_) (fun p hpm y hy => ?_) (fun p hpm => ⟨?_, fun y hy => ?_⟩)
  · have := hp.ty y hy; omega
  · have := hp.env p hpm y hy; omega
  · have := (hp.sub p hpm).1; omega
  · have := (hp.sub p hpm).2 y hy; omega

theorem Post.solves {env : List (String × Ty)} {t : Ty} {s s' : Subst} {σ σ' : St}
    (h : Post env t s σ s' σ') {θ : Nat → Ty} (hθ : Solves θ s') : Solves θ s := by
  obtain ⟨new, rfl⟩ := h.ext
  exact fun p hp => hθ p (List.mem_append_right _ hp)

/-- a call of `unify` -/
theorem post_unify {n : Nat} {env : List (String × Ty)} {x t : Ty} {s s' : Subst} {σ : St} (hp : Pre env t s σ)
    (hx : x.plain) (h : unify n x t s = some (.succ s') ∨ unify n t x s = some (.succ s'))
    (hV : ∀ V : Nat → Prop, EnvIn V env → SubIn V s → ∀ y, x.has y → V y) :
    Post env t s σ s' σ := by
  rcases h with h | h
  · obtain ⟨g1, g2, g3, g4⟩ := unify_ext h hp.wf (.inr ⟨hx, hp.tyPlain, hp.plain⟩)
    refine ⟨rfl, Nat.le_refl _, g1, g4 ⟨hx, hp.tyPlain, hp.plain⟩, g2, ?_⟩
    intro V _ ht he hs
    exact g3 V ⟨hV V he hs, ht, fun p hp => (hs p hp).1, fun p hp => (hs p hp).2⟩
  · obtain ⟨g1, g2, g3, g4⟩ := unify_ext h hp.wf (.inr ⟨hp.tyPlain, hx, hp.plain⟩)
    refine ⟨rfl, Nat.le_refl _, g1, g4 ⟨hp.tyPlain, hx, hp.plain⟩, g2, ?_⟩
    intro V _ ht he hs
    exact g3 V ⟨ht, hV V he hs, fun p hp => (hs p hp).1, fun p hp => (hs p hp).2⟩

/-- the entries that were added mention no variable that was bound -/
theorem WF.new_free {new s : Subst} (h : WF (new ++ s)) : ∀ p ∈ new, p.1 ∉ keys s ∧ ∀ y, p.2.has y → y ∉ keys s := by
  induction new with
  | nil => intro p hp; cases hp
  | cons q new ih =>
    intro p hp
    have h' : WF (q :: (new ++ s)) := h
    obtain ⟨x, t⟩ := q
    cases h' with
    | cons h1 h2 h3 =>
      rcases List.mem_cons.mp hp with rfl | hp
      · refine ⟨fun hk => h2 (by rw [keys_append]; exact List.mem_append_right _ hk), fun y hy hk => h3 y hy ?_⟩
        exact List.mem_cons_of_mem _ (show y ∈ keys (new ++ s) by rw [keys_append]; exact List.mem_append_right _ hk)
      · exact ih h1 p hp

theorem mem_keys {s : Subst} {p : Nat × Ty} (h : p ∈ s) : p.1 ∈ keys s := List.mem_map.mpr ⟨p, h, rfl⟩

/-- unifying a type that resolves to a ground type with a function type of two unbound variables -/
theorem unify_ground {n : Nat} {T G : Ty} {a b : Nat} {s r : Subst} (hw : WF s) (hab : a ≠ b) (ha : a ∉ keys s) (hb : b ∉ keys s)
    (hT : ∃ m, applySubst m T s = some G) (hG : G.ground)
    (h : unify n T (.arrow (.var a) (.var b)) s = some (.succ r) ∨ unify n (.arrow (.var a) (.var b)) T s = some (.succ r)) :
    ∃ A B, G = .arrow A B ∧ r = (b, B) :: (a, A) :: s := by
  obtain ⟨m, hT⟩ := hT
  have hself : ∀ k y, applySubst k (.arrow (.var a) (.var b)) s = some y → y = .arrow (.var a) (.var b) := by
    intro k y hy
    obtain ⟨k', e⟩ := applySubst_self (s := s) (.arrow (.var a) (.var b)) (by
      intro y hy
      rcases hy with h | h
      · cases h; exact ha
      · cases h; exact hb)
    exact applySubst_det hy e
  have var1 : ∀ {k : Nat} {X : Ty} {v : Nat} {s r : Subst}, X.ground → v ∉ keys s →
      unify k X (.var v) s = some (.succ r) → r = (v, X) :: s := by
    intro k X v s r hX hv h
    cases k with
    | zero => cases h
    | succ k =>
      obtain ⟨x, y, hx, hy, hs⟩ := unify_step h
      rw [ground_applySubst hX hx] at hs
      obtain ⟨k', e⟩ := applySubst_self (s := s) (.var v) (by intro y hy; cases hy; exact hv)
      rw [applySubst_det hy e] at hs
      generalize hr : URes.succ r = r' at hs
      cases hs with
      | same => exact absurd rfl (hX v)
      | left => exact absurd rfl (hX _)
      | leftFail => cases hr
      | right => cases hr; rfl
      | rightFail => cases hr
      | clash => cases hr
  have var2 : ∀ {k : Nat} {X : Ty} {v : Nat} {s r : Subst}, X.ground → v ∉ keys s →
      unify k (.var v) X s = some (.succ r) → r = (v, X) :: s := by
    intro k X v s r hX hv h
    cases k with
    | zero => cases h
    | succ k =>
      obtain ⟨x, y, hx, hy, hs⟩ := unify_step h
      rw [ground_applySubst hX hy] at hs
      obtain ⟨k', e⟩ := applySubst_self (s := s) (.var v) (by intro y hy; cases hy; exact hv)
      rw [applySubst_det hx e] at hs
      generalize hr : URes.succ r = r' at hs
      cases hs with
      | same => exact absurd rfl (hX v)
      | left => cases hr; rfl
      | leftFail => cases hr
      | right => exact absurd rfl (hX _)
      | rightFail => cases hr
      | clash => cases hr
  cases n with
  | zero => rcases h with h | h <;> cases h
  | succ n =>
    have hb' : ∀ A, b ∉ keys ((a, A) :: s) := by
      intro A hk
      rcases List.mem_cons.mp hk with e | hk
      · exact hab e.symm
      · exact hb hk
    rcases h with h | h
    · obtain ⟨x, y, hx, hy, hs⟩ := unify_step h
      rw [applySubst_det hx hT, hself n y hy] at hs
      generalize hr : URes.succ r = r' at hs
      cases hs with
      | same => exact absurd (.inl rfl) (hG a)
      | left => exact absurd rfl (hG _)
      | leftFail => cases hr
      | arrowFail => cases hr
      | @arrow A B _ _ _ s1 _ h1 h2 =>
        cases hr
        have e1 := var1 (fun y hy => hG y (.inl hy)) ha h1
        subst e1
        exact ⟨A, B, rfl, var1 (fun y hy => hG y (.inr hy)) (hb' A) h2⟩
      | clash => cases hr
    · obtain ⟨x, y, hx, hy, hs⟩ := unify_step h
      rw [applySubst_det hy hT, hself n x hx] at hs
      generalize hr : URes.succ r = r' at hs
      cases hs with
      | same => exact absurd (.inl rfl) (hG a)
      | right => exact absurd rfl (hG _)
      | rightFail => cases hr
      | arrowFail => cases hr
      | @arrow _ _ A B _ s1 _ h1 h2 =>
        cases hr
        have e1 := var2 (fun y hy => hG y (.inl hy)) ha h1
        subst e1
        exact ⟨A, B, rfl, var2 (fun y hy => hG y (.inr hy)) (hb' A) h2⟩
      | clash => cases hr

/-- a global name with a declared ground type of constants and functions -/
def Declared (tenv : List (String × Ty)) (x : String) : Prop := ∃ T, look x tenv = some T ∧ T.ground ∧ T.plain

theorem forget_append_old {a b : Nat} {new s : Subst} (h : SubIn (fun y => y ≠ a ∧ y ≠ b) s) :
    forget a b (new ++ s) = forget a b new ++ s := by
  simp only [forget, List.filter_append]
  congr 1
  refine List.filter_eq_self.mpr ?_
  intro p hp
  have := (h p hp).1
  simp [this.1, this.2]

theorem mem_forget {a b : Nat} {s : Subst} {p : Nat × Ty} : p ∈ forget a b s ↔ p ∈ s ∧ p.1 ≠ a ∧ p.1 ≠ b := by
  simp [forget, List.mem_filter]

theorem inst_upd {θ : Nat → Ty} {a b : Nat} {A B : Ty} {t : Ty} (h : ∀ y, t.has y → y ≠ a ∧ y ≠ b) :
    t.inst (fun y => if y = a then A else if y = b then B else θ y) = t.inst θ := by
  refine inst_congr fun y hy => ?_
  rw [if_neg (h y hy).1, if_neg (h y hy).2]

theorem instEnv_upd {θ : Nat → Ty} {a b : Nat} {A B : Ty} {env : List (String × Ty)} (h : EnvIn (fun y => y ≠ a ∧ y ≠ b) env) :
    instEnv (fun y => if y = a then A else if y = b then B else θ y) env = instEnv θ env := by
  refine List.map_congr_left fun p hp => ?_
  rw [inst_upd (h p hp)]

/-- the operator of a call: its type is known -/
structure Known (a b : Nat) (s' : Subst) : Prop where
  types : ∃ A B, (a, A) ∈ s' ∧ (b, B) ∈ s' ∧ A.ground ∧ B.ground
  free : ∀ p ∈ s', p.1 ≠ a → p.1 ≠ b → ∀ y, p.2.has y → y ≠ a ∧ y ≠ b

theorem Pre.const {env : List (String × Ty)} {t : Ty} {s : Subst} {σ : St} (h : Pre env t s σ) (c : String) :
    Pre env (.con c) s σ :=
  { h with tyPlain := trivial, ty := fun _ hy => by cases hy }

/-- the state after a call is fit for the next call -/
theorem Pre.next {env : List (String × Ty)} {t t' : Ty} {s s' : Subst} {σ σ' : St} (h : Pre env t s σ)
    (hq : Post env t s σ s' σ') (ht : t'.plain) (hv : ∀ y, t'.has y → y < σ'.next) : Pre env t' s' σ' :=
  { wf := hq.wf, plain := hq.plain, sub := hq.bound h, envPlain := h.envPlain,
    env := fun p hp y hy => Nat.lt_of_lt_of_le (h.env p hp y hy) hq.next, tyPlain := ht, ty := hv }

/-- new type variables -/
theorem Pre.fresh {env env' : List (String × Ty)} {t t' : Ty} {s : Subst} {σ : St} (h : Pre env t s σ) (k : Nat)
    (he : ∀ p ∈ env', p ∈ env ∨ ∃ v, p.2 = .var v ∧ v < σ.next + k) (ht : t'.plain) (hv : ∀ y, t'.has y → y < σ.next + k) :
    Pre env' t' s (σ.tvars k) :=
  { wf := h.wf, plain := h.plain
    sub := fun p hp => ⟨Nat.lt_add_right k (h.sub p hp).1, fun y hy => Nat.lt_add_right k ((h.sub p hp).2 y hy)⟩
    envPlain := fun p hp => (he p hp).elim (h.envPlain p) fun ⟨v, hv, _⟩ => by rw [hv]; trivial
    env := fun p hp y hy => (he p hp).elim (fun hp => Nat.lt_add_right k (h.env p hp y hy)) fun ⟨v, hv, hl⟩ => by
      rw [hv] at hy; cases hy; exact hl
    tyPlain := ht, ty := hv }

/-- types depend on the names that are used only -/
theorem HasType.env {decl : String → Option Ty} {Γ : List (String × Ty)} {e : Exp} {t : Ty} (h : HasType decl Γ e t) :
    ∀ {Γ' : List (String × Ty)}, (∀ x ∈ e.free, look x Γ = look x Γ') → HasType decl Γ' e t := by
  have under : ∀ {x : String} {a : Ty} {e : Exp} {Γ Γ' : List (String × Ty)},
      (∀ y ∈ e.free.filter (· ≠ x), look y Γ = look y Γ') → ∀ y ∈ e.free, look y ((x, a) :: Γ) = look y ((x, a) :: Γ') := by
    intro x a e Γ Γ' h y hy
    simp only [look]
    split
    · rfl
    · rename_i hne
      exact h y (List.mem_filter.mpr ⟨hy, by simpa using hne⟩)
  induction h with
  | num => intro _ _; exact .num
  | bool => intro _ _; exact .bool
  | str => intro _ _; exact .str
  | quote => intro _ _; exact .quote
  | loc hx => intro Γ' h; exact .loc (by rw [← h _ List.mem_cons_self]; exact hx)
  | glob hx hd => intro Γ' h; exact .glob (by rw [← h _ List.mem_cons_self]; exact hx) hd
  | ite _ _ _ i1 i2 i3 =>
    intro Γ' h
    simp only [Exp.free, List.mem_append] at h
    exact .ite (i1 fun x hx => h x (.inl (.inl hx))) (i2 fun x hx => h x (.inl (.inr hx))) (i3 fun x hx => h x (.inr hx))
  | seq _ _ i1 i2 =>
    intro Γ' h
    simp only [Exp.free, List.mem_append] at h
    exact .seq (i1 fun x hx => h x (.inl hx)) (i2 fun x hx => h x (.inr hx))
  | lam0 _ i1 => intro Γ' h; exact .lam0 (i1 h)
  | lam _ i1 => intro Γ' h; exact .lam (i1 (under h))
  | letE _ _ i1 i2 =>
    intro Γ' h
    exact .letE (i1 fun x hx => h x (List.mem_append_left _ hx)) (i2 (under fun x hx => h x (List.mem_append_right _ hx)))
  | app0 _ i1 => intro Γ' h; exact .app0 (i1 h)
  | app _ _ i1 i2 =>
    intro Γ' h
    simp only [Exp.free, List.mem_append] at h
    exact .app (i1 fun x hx => h x (.inl hx)) (i2 fun x hx => h x (.inr hx))

theorem checkH_sound (tenv : List (String × Ty)) (decl : String → Option Ty)
    (hdecl : ∀ x T, look x tenv = some T → T.ground → T.plain → decl x = some T) (n : Nat) :
    ∀ {op : Bool} {e : Exp} {t : Ty} {env : List (String × Ty)} {s s' : Subst} {σ σ' : St},
    Calls (Declared tenv) (env.map (·.1)) op e → Pre env t s σ → σ.tenv = tenv →
    checkH n e t env s σ = some (.succ s', σ') →
    (op = true → ∃ a b, t = .arrow (.var a) (.var b) ∧ a ≠ b ∧ SubIn (fun y => y ≠ a ∧ y ≠ b) s ∧
      EnvIn (fun y => y ≠ a ∧ y ≠ b) env) →
    Post env t s σ s' σ' ∧ (∀ θ, Solves θ s' → HasType decl (instEnv θ env) e (t.inst θ)) ∧
    (op = true → ∀ a b, t = .arrow (.var a) (.var b) → Known a b s') := by
  induction n using Nat.strongRecOn with
  | _ n ih =>
    intro op e t env s s' σ σ' hc hp htenv h hop
    cases n with
    | zero => cases h
    | succ n =>
    have ihC : ∀ {e : Exp} {t : Ty} {env : List (String × Ty)} {s s' : Subst} {σ σ' : St},
        Calls (Declared tenv) (env.map (·.1)) false e → Pre env t s σ → σ.tenv = tenv →
        check n e t env s σ = some (.succ s', σ') →
        Post env t s σ s' σ' ∧ (∀ θ, Solves θ s' → HasType decl (instEnv θ env) e (t.inst θ)) := by
      intro e t env s s' σ σ' hc hp ht h
      obtain ⟨m, rfl, hm⟩ := check_plain hp.tyPlain h
      have := ih m (by omega) hc hp ht hm (fun h => by cases h)
      exact ⟨this.1, this.2.1⟩
    cases hc with
    | num =>
      obtain ⟨hu, rfl⟩ := unifyS_succ h
      refine ⟨post_unify hp (x := .con "int") trivial (.inl hu) (fun _ _ _ _ hy => by cases hy), ?_, fun h => by cases h⟩
      intro θ hθ
      rw [← ((unify_mg hu θ).mp hθ).2]
      exact .num
    | bool =>
      obtain ⟨hu, rfl⟩ := unifyS_succ h
      refine ⟨post_unify hp (x := .con "bool") trivial (.inl hu) (fun _ _ _ _ hy => by cases hy), ?_, fun h => by cases h⟩
      intro θ hθ
      rw [← ((unify_mg hu θ).mp hθ).2]
      exact .bool
    | str =>
      obtain ⟨hu, rfl⟩ := unifyS_succ h
      refine ⟨post_unify hp (x := .con "string") trivial (.inl hu) (fun _ _ _ _ hy => by cases hy), ?_, fun h => by cases h⟩
      intro θ hθ
      rw [← ((unify_mg hu θ).mp hθ).2]
      exact .str
    | quote =>
      obtain ⟨hu, rfl⟩ := unifyS_succ h
      refine ⟨post_unify hp (x := .con "symbol") trivial (.inl hu) (fun _ _ _ _ hy => by cases hy), ?_, fun h => by cases h⟩
      intro θ hθ
      rw [← ((unify_mg hu θ).mp hθ).2]
      exact .quote
    | @loc L x hx =>
      obtain ⟨T, hT⟩ := look_some hx
      simp only [checkH, hT] at h
      obtain ⟨hu, rfl⟩ := unifyS_succ h
      have hm := look_mem hT
      refine ⟨post_unify hp (x := T) (hp.envPlain _ hm) (.inl hu) (fun V he _ y hy => he _ hm y hy), ?_, fun h => by cases h⟩
      intro θ hθ
      rw [← ((unify_mg hu θ).mp hθ).2]
      exact .loc (by rw [look_inst, hT]; rfl)
    | @glob L x op hx hd =>
      obtain ⟨T, hT, hg, hpl⟩ := hd
      have hn := look_none hx
      simp only [checkH, hn, htenv, hT] at h
      obtain ⟨hu, rfl⟩ := unifyS_succ h
      refine ⟨post_unify hp (x := T) hpl (.inl hu) (fun _ _ _ y hy => absurd hy (hg y)), ?_, ?_⟩
      · intro θ hθ
        rw [← ((unify_mg hu θ).mp hθ).2, inst_ground hg]
        exact .glob (by rw [look_inst, hn]; rfl) (hdecl _ _ hT hg hpl)
      · intro ho a b hab
        obtain ⟨a', b', e, hne, hs, he⟩ := hop ho
        rw [e] at hab
        cases hab
        have hk : ∀ v, (v = a ∨ v = b) → v ∉ keys s := by
          intro v hv hk
          obtain ⟨p, hp1, rfl⟩ := List.mem_map.mp hk
          have := (hs p hp1).1
          exact hv.elim this.1 this.2
        subst e
        obtain ⟨A, B, e1, e2⟩ := unify_ground hp.wf hne (hk a (.inl rfl)) (hk b (.inr rfl))
          (applySubst_self T fun y hy => absurd hy (hg y)) hg (.inl hu)
        subst e1 e2
        refine ⟨⟨A, B, by simp, by simp, fun y hy => hg y (.inl hy), fun y hy => hg y (.inr hy)⟩, ?_⟩
        intro p hp1 h1 h2
        rcases List.mem_cons.mp hp1 with rfl | hp1
        · exact absurd rfl h2
        · rcases List.mem_cons.mp hp1 with rfl | hp1
          · exact absurd rfl h1
          · exact (hs p hp1).2
    | @ite L c e1 e2 hc1 hc2 hc3 =>
      simp only [checkH] at h
      obtain ⟨s1, σ1, h1, h⟩ := bindS_succ h
      obtain ⟨s2, σ2, h2, h3⟩ := bindS_succ h
      have p1 := hp.const "bool"
      obtain ⟨q1, t1, _⟩ := ih n (by omega) hc1 p1 htenv h1 (fun h => by cases h)
      have p2 : Pre env t s1 σ1 := p1.next q1 hp.tyPlain fun y hy => Nat.lt_of_lt_of_le (hp.ty y hy) q1.next
      obtain ⟨q2, t2⟩ := ihC hc2 p2 (by rw [q1.tenv, htenv]) h2
      have p3 : Pre env t s2 σ2 := p2.next q2 hp.tyPlain fun y hy => Nat.lt_of_lt_of_le (p2.ty y hy) q2.next
      obtain ⟨q3, t3⟩ := ihC hc3 p3 (by rw [q2.tenv, q1.tenv, htenv]) h3
      refine ⟨⟨by rw [q3.tenv, q2.tenv, q1.tenv], Nat.le_trans q1.next (Nat.le_trans q2.next q3.next), q3.wf, q3.plain, ?_, ?_⟩,
        ?_, fun h => by cases h⟩
      · obtain ⟨n1, rfl⟩ := q1.ext
        obtain ⟨n2, rfl⟩ := q2.ext
        obtain ⟨n3, rfl⟩ := q3.ext
        exact ⟨n3 ++ (n2 ++ n1), by simp⟩
      · intro V hV ht he hs
        have l1 := q1.next
        have l2 := q2.next
        have l3 := q3.next
        refine q3.sub V (fun y a b => hV y (by omega) b) ht he (q2.sub V (fun y a b => hV y (by omega) (by omega)) ht he
          (q1.sub V (fun y a b => hV y a (by omega)) (fun y hy => by cases hy) he hs))
      · intro θ hθ
        exact .ite (t1 θ (q2.solves (q3.solves hθ))) (t2 θ (q3.solves hθ)) (t3 θ hθ)
    | @seq L e1 e2 hc1 hfree hc2 =>
      simp only [checkH] at h
      obtain ⟨s1, σ1, h1, h2⟩ := bindS_succ h
      have p1 : Pre env (.var σ.next) s (σ.tvars 1) :=
        hp.fresh 1 (fun p hp => .inl hp) trivial (fun y hy => by cases hy; omega)
      obtain ⟨q1, t1, _⟩ := ih n (by omega) hc1 p1 htenv h1 (fun h => by cases h)
      have l1 : σ.next + 1 ≤ σ1.next := q1.next
      have p2 : Pre env t s σ1 :=
        { hp with
          sub := fun p hpm => ⟨by have := (hp.sub p hpm).1; omega, fun y hy => by have := (hp.sub p hpm).2 y hy; omega⟩
          env := fun p hpm y hy => by have := hp.env p hpm y hy; omega
          ty := fun y hy => by have := hp.ty y hy; omega }
      obtain ⟨q2, t2, _⟩ := ih n (by omega) hc2 p2 (by rw [q1.tenv]; exact htenv) h2 (fun h => by cases h)
      refine ⟨⟨by rw [q2.tenv, q1.tenv]; rfl, by have := q2.next; omega, q2.wf, q2.plain, q2.ext, ?_⟩, ?_, fun h => by cases h⟩
      · intro V hV ht he hs
        exact q2.sub V (fun y a b => hV y (by omega) b) ht he hs
      · intro θ hθ
        obtain ⟨θ1, k1, _⟩ := q1.wf.solution
        refine .seq (HasType.env (t1 θ1 k1) fun x hx => ?_) (t2 θ hθ)
        have hn : look x env = none := look_none fun hm => hfree x hm hx
        rw [look_inst, look_inst, hn]
        rfl
    | @lam L x e hc =>
      simp only [checkH] at h
      obtain ⟨s1, σ1, h1, h⟩ := bindS_succ h
      obtain ⟨h2, rfl⟩ := unifyS_succ h
      have p1 : Pre ((x, .var σ.next) :: env) (.var (σ.next + 1)) s (σ.tvars 2) := by
        refine hp.fresh 2 ?_ trivial (fun y hy => by cases hy; omega)
        intro p hp
        rcases List.mem_cons.mp hp with rfl | hp
        · exact .inr ⟨_, rfl, by omega⟩
        · exact .inl hp
      obtain ⟨q1, t1⟩ := ihC (env := (x, .var σ.next) :: env) hc p1 htenv h1
      have l1 : σ.next + 2 ≤ σ'.next := q1.next
      have p2 : Pre env t s1 σ' :=
        { wf := q1.wf, plain := q1.plain, sub := q1.bound p1, envPlain := hp.envPlain
          env := fun p hpm y hy => by have := hp.env p hpm y hy; omega
          tyPlain := hp.tyPlain, ty := fun y hy => by have := hp.ty y hy; omega }
      obtain ⟨g1, g2, g3, g4⟩ := unify_ext h2 q1.wf (.inr ⟨hp.tyPlain, ⟨trivial, trivial⟩, q1.plain⟩)
      refine ⟨⟨q1.tenv, by omega, g1, g4 ⟨hp.tyPlain, ⟨trivial, trivial⟩, q1.plain⟩, ?_, ?_⟩, ?_, fun h => by cases h⟩
      · obtain ⟨n1, rfl⟩ := q1.ext
        obtain ⟨n2, rfl⟩ := g2
        exact ⟨n2 ++ n1, by simp⟩
      · intro V hV ht he hs
        have va : V σ.next := hV _ (by omega) (by omega)
        have vb : V (σ.next + 1) := hV _ (by omega) (by omega)
        have := q1.sub V (fun y a b => hV y (by simp only [St.tvars] at a; omega) b) (fun y hy => by cases hy; exact vb) (by
          intro p hp y hy
          rcases List.mem_cons.mp hp with rfl | hp
          · cases hy; exact va
          · exact he p hp y hy) hs
        refine g3 V ⟨ht, ?_, fun p hp => (this p hp).1, fun p hp => (this p hp).2⟩
        intro y hy
        rcases hy with h | h
        · cases h; exact va
        · cases h; exact vb
      · intro θ hθ
        obtain ⟨k1, k2⟩ := (unify_mg h2 θ).mp hθ
        rw [k2]
        exact .lam (t1 θ k1)
    | @letE L x e1 e2 hc1 hc2 =>
      simp only [checkH] at h
      obtain ⟨s1, σ1, h1, h2⟩ := bindS_succ h
      have p1 : Pre env (.var σ.next) s (σ.tvars 1) :=
        hp.fresh 1 (fun p hp => .inl hp) trivial (fun y hy => by cases hy; omega)
      obtain ⟨q1, t1⟩ := ihC hc1 p1 htenv h1
      have l1 : σ.next + 1 ≤ σ1.next := q1.next
      have p2 : Pre ((x, .var σ.next) :: env) t s1 σ1 :=
        { wf := q1.wf, plain := q1.plain, sub := q1.bound p1
          envPlain := fun p hpm => by
            rcases List.mem_cons.mp hpm with rfl | hpm
            · trivial
            · exact hp.envPlain p hpm
          env := fun p hpm y hy => by
            rcases List.mem_cons.mp hpm with rfl | hpm
            · cases hy; show σ.next < σ1.next; omega
            · have := hp.env p hpm y hy; omega
          tyPlain := hp.tyPlain, ty := fun y hy => by have := hp.ty y hy; omega }
      obtain ⟨q2, t2⟩ := ihC (env := (x, .var σ.next) :: env) hc2 p2 (by rw [q1.tenv]; exact htenv) h2
      have l2 := q2.next
      refine ⟨⟨by rw [q2.tenv, q1.tenv]; rfl, by omega, q2.wf, q2.plain, ?_, ?_⟩, ?_, fun h => by cases h⟩
      · obtain ⟨n1, rfl⟩ := q1.ext
        obtain ⟨n2, rfl⟩ := q2.ext
        exact ⟨n2 ++ n1, by simp⟩
      · intro V hV ht he hs
        have va : V σ.next := hV _ (by omega) (by omega)
        refine q2.sub V (fun y a b => hV y (by omega) b) ht ?_ (q1.sub V (fun y a b => hV y (by simp only [St.tvars] at a; omega)
          (by omega)) (fun y hy => by cases hy; exact va) he hs)
        intro p hp y hy
        rcases List.mem_cons.mp hp with rfl | hp
        · cases hy; exact va
        · exact he p hp y hy
      · intro θ hθ
        exact .letE (t1 θ (q2.solves hθ)) (t2 θ hθ)
    | @app L f x op hcf hcx =>
      simp only [checkH] at h
      obtain ⟨s1, σ1, h1, h⟩ := bindS_succ h
      split at h
      · cases h
      rename_i A' hA'
      obtain ⟨s2, σ2, h2, h⟩ := bindS_succ h
      obtain ⟨s3, σ3, h3, h4⟩ := bindS_succ h
      obtain ⟨hu, rfl⟩ := unifyS_succ h3
      cases h4
      have fresh : ∀ y, y < σ.next → y ≠ σ.next ∧ y ≠ σ.next + 1 := fun y hy => ⟨by omega, by omega⟩
      have es : SubIn (fun y => y ≠ σ.next ∧ y ≠ σ.next + 1) s :=
        fun p hpm => ⟨fresh _ (hp.sub p hpm).1, fun y hy => fresh y ((hp.sub p hpm).2 y hy)⟩
      have ee : EnvIn (fun y => y ≠ σ.next ∧ y ≠ σ.next + 1) env := fun p hpm y hy => fresh y (hp.env p hpm y hy)
      have et : ∀ y, t.has y → y ≠ σ.next ∧ y ≠ σ.next + 1 := fun y hy => fresh y (hp.ty y hy)
      have p1 : Pre env (.arrow (.var σ.next) (.var (σ.next + 1))) s (σ.tvars 2) := by
        refine hp.fresh 2 (fun p hp => .inl hp) ⟨trivial, trivial⟩ ?_
        intro y hy
        rcases hy with h | h <;> cases h <;> omega
      obtain ⟨q1, t1, k1⟩ := ih n (by omega) hcf p1 htenv h1 (fun _ => ⟨_, _, rfl, by omega, es, ee⟩)
      obtain ⟨⟨A, B, hA, hB, gA, gB⟩, hfree⟩ := k1 rfl _ _ rfl
      have l1 : σ.next + 2 ≤ σ1.next := q1.next
      have eA : A' = A := by
        obtain ⟨m, e⟩ := applySubst_self (s := s1) A fun y hy => absurd hy (gA y)
        have : applySubst (m + 1) (.var σ.next) s1 = some A := by simp only [applySubst, q1.wf.assq hA, e]
        exact applySubst_det hA' this
      subst eA
      have plA : A'.plain := q1.plain _ hA
      have p2 : Pre env A' s1 σ1 := p1.next q1 plA fun y hy => absurd hy (gA y)
      obtain ⟨q2, t2⟩ := ihC hcx p2 (by rw [q1.tenv]; exact htenv) h2
      have l2 := q2.next
      have p3 : Pre env t s2 σ' := p2.next q2 hp.tyPlain fun y hy => by have := hp.ty y hy; omega
      obtain ⟨g1, g2, g3, g4⟩ := unify_ext hu q2.wf (.inr ⟨hp.tyPlain, trivial, q2.plain⟩)
      have gpl := g4 ⟨hp.tyPlain, trivial, q2.plain⟩
      obtain ⟨n1, e1⟩ := q1.ext
      obtain ⟨n2, e2⟩ := q2.ext
      obtain ⟨n3, e3⟩ := g2
      have e31 : s3 = (n3 ++ n2) ++ s1 := by rw [e3, e2]; simp
      have e30 : s3 = (n3 ++ n2 ++ n1) ++ s := by rw [e31, e1]; simp
      -- entries other than those of the two variables do not mention them
      have free3 : ∀ p ∈ s3, p.1 ≠ σ.next → p.1 ≠ σ.next + 1 → ∀ y, p.2.has y → y ≠ σ.next ∧ y ≠ σ.next + 1 := by
        intro p hpm n1 n2 y hy
        rw [e31] at hpm
        rcases List.mem_append.mp hpm with hpm | hpm
        · have := (WF.new_free (e31 ▸ g1) p hpm).2 y hy
          constructor
          · rintro rfl; exact this (mem_keys hA)
          · rintro rfl; exact this (mem_keys hB)
        · exact hfree p hpm n1 n2 y hy
      have hext : forget σ.next (σ.next + 1) s3 = forget σ.next (σ.next + 1) (n3 ++ n2 ++ n1) ++ s := by
        rw [e30]; exact forget_append_old es
      refine ⟨⟨by rw [q2.tenv, q1.tenv]; rfl, by omega, g1.sub List.filter_sublist, ?_, ⟨_, hext⟩, ?_⟩, ?_, ?_⟩
      · intro p hpm
        exact gpl p (mem_forget.mp hpm).1
      · intro V hV ht he hs p hpm
        obtain ⟨hpm, m1, m2⟩ := mem_forget.mp hpm
        have va : V σ.next := hV _ (by omega) (by omega)
        have vb : V (σ.next + 1) := hV _ (by omega) (by omega)
        have r1 := q1.sub V (fun y a b => hV y (by simp only [St.tvars] at a; omega) (by omega)) (by
          intro y hy
          rcases hy with h | h
          · cases h; exact va
          · cases h; exact vb) he hs
        have r2 := q2.sub V (fun y a b => hV y (by omega) b) (fun y hy => absurd hy (gA y)) he r1
        exact g3 V ⟨ht, fun y hy => by cases hy; exact vb, fun p hp => (r2 p hp).1, fun p hp => (r2 p hp).2⟩ p hpm
      · intro θ hθ
        let θ' : Nat → Ty := fun y => if y = σ.next then A' else if y = σ.next + 1 then B else θ y
        have ha : θ' σ.next = A' := if_pos rfl
        have hb : θ' (σ.next + 1) = B := by
          show (if σ.next + 1 = σ.next then A' else _) = B
          rw [if_neg (by omega), if_pos rfl]
        have hA3 : (σ.next, A') ∈ s3 := by rw [e31]; exact List.mem_append_right _ hA
        have hB3 : (σ.next + 1, B) ∈ s3 := by rw [e31]; exact List.mem_append_right _ hB
        have hθ' : Solves θ' s3 := by
          rintro ⟨v, T⟩ hpm
          by_cases hv : v = σ.next
          · subst hv
            have : T = A' := by
              have e := g1.assq hpm
              rw [g1.assq hA3] at e
              exact (Option.some.inj e).symm
            rw [this, inst_ground gA]; exact ha
          · by_cases hv2 : v = σ.next + 1
            · subst hv2
              have : T = B := by
                have e := g1.assq hpm
                rw [g1.assq hB3] at e
                exact (Option.some.inj e).symm
              rw [this, inst_ground gB]; exact hb
            · have := hθ _ (mem_forget.mpr ⟨hpm, hv, hv2⟩)
              show θ' v = T.inst θ'
              rw [show T.inst θ' = T.inst θ from inst_upd (free3 _ hpm hv hv2)]
              show (if v = σ.next then A' else if v = σ.next + 1 then B else θ v) = _
              rw [if_neg hv, if_neg hv2]
              exact this
        obtain ⟨m1, m2⟩ := (unify_mg hu θ').mp hθ'
        have henv : instEnv θ' env = instEnv θ env := instEnv_upd ee
        have hty : t.inst θ' = t.inst θ := inst_upd et
        rw [hty] at m2
        rw [m2, ← henv]
        have hf := t1 θ' (q2.solves m1)
        have hx := t2 θ' m1
        simp only [Ty.inst] at hf ⊢
        rw [inst_ground gA] at hx
        rw [ha] at hf
        exact .app hf hx
      · intro ho a b hab
        obtain ⟨a', b', e, hne, hs, he⟩ := hop ho
        rw [hab] at e
        cases e
        subst hab
        have ha1 : a < σ.next := hp.ty a (.inl rfl)
        have hb1 : b < σ.next := hp.ty b (.inr rfl)
        have r1 : SubIn (fun y => y ≠ a ∧ y ≠ b) s1 := q1.sub _ (fun y u _ => by simp only [St.tvars] at u; omega) (by
          intro y hy
          rcases hy with h | h <;> cases h <;> omega) he hs
        have r2 : SubIn (fun y => y ≠ a ∧ y ≠ b) s2 := q2.sub _ (fun y u _ => by omega) (fun y hy => absurd hy (gA y)) he r1
        have hk : ∀ v, (v = a ∨ v = b) → v ∉ keys s2 := by
          intro v hv hk
          obtain ⟨p, hp1, rfl⟩ := List.mem_map.mp hk
          have := (r2 p hp1).1
          exact hv.elim this.1 this.2
        have hB2 : (σ.next + 1, B) ∈ s2 := by rw [e2]; exact List.mem_append_right _ hB
        obtain ⟨A2, B2, e4, e5⟩ := unify_ground q2.wf hne (hk a (.inl rfl)) (hk b (.inr rfl)) (T := .var (σ.next + 1)) (by
          obtain ⟨m, e⟩ := applySubst_self (s := s2) B fun y hy => absurd hy (gB y)
          exact ⟨m + 1, by simp only [applySubst, q2.wf.assq hB2, e]⟩) gB (.inr hu)
        subst e4 e5
        refine ⟨⟨A2, B2, ?_, ?_, fun y hy => gB y (.inl hy), fun y hy => gB y (.inr hy)⟩, ?_⟩
        · exact mem_forget.mpr ⟨by simp, by show a ≠ _; omega, by show a ≠ _; omega⟩
        · exact mem_forget.mpr ⟨by simp, by show b ≠ _; omega, by show b ≠ _; omega⟩
        · intro p hp1 h1 h2
          have hp1 := (mem_forget.mp hp1).1
          rcases List.mem_cons.mp hp1 with rfl | hp1
          · exact absurd rfl h2
          · rcases List.mem_cons.mp hp1 with rfl | hp1
            · exact absurd rfl h1
            · exact (r2 p hp1).2

end Cora.Infer
