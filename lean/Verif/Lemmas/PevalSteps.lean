import Verif.Lemmas.PevalSound
import Verif.Spec.PevalOk
/-
A harmless run of the partial evaluator is a sequence of layers of simplification.
-/
open Spec.Lang
namespace Cora.Peval

/-! ### sequences of layers -/

/-- several layers -/
inductive Steps (Γ : List Sym) : Core → Core → Prop where
  | refl (e) : Steps Γ e e
  | head {e e1 e2} : T Γ [] e e1 → Steps Γ e1 e2 → Steps Γ e e2

theorem Steps.trans {Γ e e1 e2} (h : Steps Γ e e1) (h' : Steps Γ e1 e2) : Steps Γ e e2 := by
  induction h with
  | refl => exact h'
  | head h1 _ ih => exact .head h1 (ih h')

theorem Steps.one {Γ e e1} (h : T Γ [] e e1) : Steps Γ e e1 := .head h (.refl _)

/-- layers inside a context -/
theorem Steps.inside {Γ Γ' e e1} (C : Core → Core) (hC : ∀ a b, T Γ [] a b → T Γ' [] (C a) (C b)) (h : Steps Γ e e1) :
    Steps Γ' (C e) (C e1) := by
  induction h with
  | refl => exact .refl _
  | head h1 _ ih => exact .head (hC _ _ h1) ih

theorem Steps.lam {Γ ps e e1} (h : Steps (ps ++ Γ) e e1) : Steps Γ (.lam ps e) (.lam ps e1) :=
  h.inside (.lam ps) fun _ _ h => .lam (fun _ _ h => by cases h) h

theorem Steps.ite {Γ a b c a1 b1 c1} (ha : Steps Γ a a1) (hb : Steps Γ b b1) (hc : Steps Γ c c1) :
    Steps Γ (.ite a b c) (.ite a1 b1 c1) :=
  ((ha.inside (fun a => .ite a b c) fun _ _ h => .ite h (T.refl ..) (T.refl ..)).trans
    (hb.inside (fun b => .ite a1 b c) fun _ _ h => .ite (T.refl ..) h (T.refl ..))).trans
    (hc.inside (fun c => .ite a1 b1 c) fun _ _ h => .ite (T.refl ..) (T.refl ..) h)

theorem Steps.seq {Γ a b a1 b1} (ha : Steps Γ a a1) (hb : Steps Γ b b1) : Steps Γ (.seq a b) (.seq a1 b1) :=
  (ha.inside (fun a => .seq a b) fun _ _ h => .seq h (T.refl ..)).trans
    (hb.inside (fun b => .seq a1 b) fun _ _ h => .seq (T.refl ..) h)

theorem Steps.bind {Γ x e b e1 b1} (he : Steps Γ e e1) (hb : Steps (x :: Γ) b b1) : Steps Γ (.bind x e b) (.bind x e1 b1) :=
  (he.inside (fun e => .bind x e b) fun _ _ h => .bind (fun _ _ h => by cases h) h (T.refl ..)).trans
    (hb.inside (fun b => .bind x e1 b) fun _ _ h => .bind (fun _ _ h => by cases h) (T.refl ..) h)

theorem steps_var {Γ x e} (h : Steps Γ (.var x) e) : e = .var x := by
  generalize hv : Core.var x = v at h
  induction h with
  | refl => rfl
  | head h1 _ ih =>
    subst hv
    cases h1 with
    | var _ _ => exact ih rfl
    | sub _ _ h => cases h

theorem Steps.op {Γ f f1 args} (h : Steps Γ f f1) (ho : OpOk f f1) : Steps Γ (.app f args) (.app f1 args) := by
  induction h with
  | refl => exact .refl _
  | @head e e1 e2 h1 h2 ih =>
    have ho1 : OpOk e e1 := by
      rcases ho with h | h
      · exact .inl h
      · refine .inr fun p hp => ?_
        subst hp
        exact h p (steps_var h2)
    have ho2 : OpOk e1 e2 := by
      rcases ho with ⟨x, rfl⟩ | h
      · cases h1 with
        | var _ _ => exact .inl ⟨x, rfl⟩
        | sub _ _ h => cases h
      · exact .inr h
    exact .head (.app ho1 h1 (Ts.refl _ _)) (ih ho2)

/-- the operands one after the other -/
inductive StepsAll (Γ : List Sym) : List Core → List Core → Prop where
  | nil : StepsAll Γ [] []
  | cons {e e1 es es1} : Steps Γ e e1 → StepsAll Γ es es1 → StepsAll Γ (e :: es) (e1 :: es1)

theorem ts_middle {Γ : List Sym} {a b : Core} {es : List Core} (h : T Γ [] a b) : ∀ pre : List Core,
    Ts Γ [] (pre ++ a :: es) (pre ++ b :: es)
  | [] => .cons h (Ts.refl _ _)
  | x :: r => .cons (T.refl x Γ) (ts_middle h r)

theorem StepsAll.app {Γ : List Sym} {f : Core} {es es1 : List Core} (h : StepsAll Γ es es1) : ∀ pre : List Core,
    Steps Γ (.app f (pre ++ es)) (.app f (pre ++ es1)) := by
  induction h with
  | nil => intro pre; exact .refl _
  | @cons e e1 es es1 h1 h2 ih =>
    intro pre
    refine (h1.inside (fun a => .app f (pre ++ a :: es)) fun _ _ h => .app (opOk_refl f) (T.refl ..) (ts_middle h pre)).trans ?_
    have := ih (pre ++ [e1])
    simpa using this

/-! ### substitution -/

mutual
theorem t_subst : ∀ (e : Core) (Γ : List Sym) (δ : Sub), (∀ k s, lookup k δ = some s → ∀ z ∈ s.fv, z ∉ binders e) →
    T Γ δ e (subst δ e)
  | .lit c, _, _, _ => .lit c
  | .quote d, _, _, _ => .quote d
  | .var x, _, δ, _ => by
    simp only [subst]
    cases h : lookup x δ with
    | none => exact .var x h
    | some s => exact .sub x s h
  | .lam ps b, Γ, δ, h => by
    simp only [subst]
    refine .lam (fun k s hk _ p hp hs => h k s hk p hs (by simp [binders, hp])) (t_subst b _ _ fun k s hk z hz hb => ?_)
    rw [lookup_shrink] at hk
    split at hk
    · cases hk
    · exact h k s hk z hz (by simp [binders, hb])
  | .ite a b c, Γ, δ, h => .ite (t_subst a _ _ fun k s hk z hz hb => h k s hk z hz (by simp [binders, hb]))
      (t_subst b _ _ fun k s hk z hz hb => h k s hk z hz (by simp [binders, hb]))
      (t_subst c _ _ fun k s hk z hz hb => h k s hk z hz (by simp [binders, hb]))
  | .seq a b, Γ, δ, h => .seq (t_subst a _ _ fun k s hk z hz hb => h k s hk z hz (by simp [binders, hb]))
      (t_subst b _ _ fun k s hk z hz hb => h k s hk z hz (by simp [binders, hb]))
  | .bind x e b, Γ, δ, h => by
    simp only [subst]
    refine .bind (fun k s hk _ hs => h k s hk x hs (by simp [binders]))
      (t_subst e _ _ fun k s hk z hz hb => h k s hk z hz (by simp [binders, hb])) (t_subst b _ _ fun k s hk z hz hb => ?_)
    rw [lookup_shrink] at hk
    split at hk
    · cases hk
    · exact h k s hk z hz (by simp [binders, hb])
  | .app f args, Γ, δ, h => by
    simp only [subst]
    refine .app ?_ (t_subst f _ _ fun k s hk z hz hb => h k s hk z hz (by simp [binders, hb]))
      (ts_subst args _ _ fun k s hk z hz hb => h k s hk z hz (by simp [binders, hb]))
    cases f with
    | var x => exact .inl ⟨x, rfl⟩
    | _ => exact .inr fun p hp => by simp [subst] at hp
theorem ts_subst : ∀ (es : List Core) (Γ : List Sym) (δ : Sub),
    (∀ k s, lookup k δ = some s → ∀ z ∈ s.fv, z ∉ bindersAll es) → Ts Γ δ es (substAll δ es)
  | [], _, _, _ => .nil
  | e :: r, Γ, δ, h => .cons (t_subst e _ _ fun k s hk z hz hb => h k s hk z hz (by simp [bindersAll, hb]))
      (ts_subst r _ _ fun k s hk z hz hb => h k s hk z hz (by simp [bindersAll, hb]))
end

mutual
theorem subst_congr : ∀ (e : Core) (σ τ : Sub), (∀ x ∈ e.fv, lookup x σ = lookup x τ) → subst σ e = subst τ e
  | .lit c, _, _, _ => rfl
  | .quote d, _, _, _ => rfl
  | .var x, σ, τ, h => by simp only [subst]; rw [h x (by simp [Core.fv])]
  | .lam ps b, σ, τ, h => by
    simp only [subst]
    rw [subst_congr b (shrink ps σ) (shrink ps τ) fun x hx => ?_]
    rw [lookup_shrink, lookup_shrink]
    split
    · rfl
    · rename_i hp
      exact h x (by simp [Core.fv, hx, hp])
  | .ite a b c, σ, τ, h => by
    simp only [subst]
    rw [subst_congr a σ τ fun x hx => h x (by simp [Core.fv, hx]), subst_congr b σ τ fun x hx => h x (by simp [Core.fv, hx]),
      subst_congr c σ τ fun x hx => h x (by simp [Core.fv, hx])]
  | .seq a b, σ, τ, h => by
    simp only [subst]
    rw [subst_congr a σ τ fun x hx => h x (by simp [Core.fv, hx]), subst_congr b σ τ fun x hx => h x (by simp [Core.fv, hx])]
  | .bind y e b, σ, τ, h => by
    simp only [subst]
    rw [subst_congr e σ τ fun x hx => h x (by simp [Core.fv, hx]), subst_congr b (shrink [y] σ) (shrink [y] τ) fun x hx => ?_]
    rw [lookup_shrink, lookup_shrink]
    split
    · rfl
    · rename_i hp
      exact h x (by simp at hp; simp [Core.fv, hx, hp])
  | .app f args, σ, τ, h => by
    simp only [subst]
    rw [subst_congr f σ τ fun x hx => h x (by simp [Core.fv, hx]), substAll_congr args σ τ fun x hx => h x (by simp [Core.fv, hx])]
theorem substAll_congr : ∀ (es : List Core) (σ τ : Sub), (∀ x ∈ Core.fvs es, lookup x σ = lookup x τ) →
    substAll σ es = substAll τ es
  | [], _, _, _ => rfl
  | e :: r, σ, τ, h => by
    simp only [substAll]
    rw [subst_congr e σ τ fun x hx => h x (by simp [Core.fvs, hx]), substAll_congr r σ τ fun x hx => h x (by simp [Core.fvs, hx])]
end

mutual
theorem subst_nil : ∀ (e : Core), subst [] e = e
  | .lit c => rfl
  | .quote d => rfl
  | .var x => rfl
  | .lam ps b => by simp only [subst, shrink_nil, subst_nil b]
  | .ite a b c => by simp only [subst, subst_nil a, subst_nil b, subst_nil c]
  | .seq a b => by simp only [subst, subst_nil a, subst_nil b]
  | .bind x e b => by simp only [subst, shrink_nil, subst_nil e, subst_nil b]
  | .app f args => by simp only [subst, subst_nil f, substAll_nil args]
theorem substAll_nil : ∀ (es : List Core), substAll [] es = es
  | [] => rfl
  | e :: r => by simp only [substAll, subst_nil e, substAll_nil r]
end

theorem subst_id {e : Core} {σ : Sub} (h : ∀ x ∈ e.fv, lookup x σ = none) : subst σ e = e := by
  rw [subst_congr e σ [] fun x hx => by rw [h x hx]; rfl, subst_nil]

/-- one substitution after the other -/
structure Comp (δ σ τ : Sub) : Prop where
  apart : ∀ k s, lookup k σ = some s → ∀ z ∈ s.fv, lookup z δ = none
  both : ∀ y, lookup y τ = (lookup y σ).or (lookup y δ)

theorem Comp.shrink {δ σ τ : Sub} (h : Comp δ σ τ) (ps : List Sym) :
    Comp (shrink ps δ) (Peval.shrink ps σ) (Peval.shrink ps τ) := by
  constructor
  · intro k s hk z hz
    rw [lookup_shrink] at hk ⊢
    split at hk
    · cases hk
    · split
      · rfl
      · exact h.apart k s hk z hz
  · intro y
    simp only [lookup_shrink]
    split
    · rfl
    · exact h.both y

mutual
theorem subst_comp : ∀ (e : Core) {δ σ τ : Sub}, Comp δ σ τ → subst δ (subst σ e) = subst τ e
  | .lit c, _, _, _, _ => rfl
  | .quote d, _, _, _, _ => rfl
  | .var x, δ, σ, τ, h => by
    simp only [subst, h.both x]
    cases hx : lookup x σ with
    | none => simp [subst]
    | some s => simpa using subst_id (h.apart x s hx)
  | .lam ps b, _, _, _, h => by simp only [subst, subst_comp b (h.shrink ps)]
  | .ite a b c, _, _, _, h => by simp only [subst, subst_comp a h, subst_comp b h, subst_comp c h]
  | .seq a b, _, _, _, h => by simp only [subst, subst_comp a h, subst_comp b h]
  | .bind x e b, _, _, _, h => by simp only [subst, subst_comp e h, subst_comp b (h.shrink [x])]
  | .app f args, _, _, _, h => by simp only [subst, subst_comp f h, substAll_comp args h]
theorem substAll_comp : ∀ (es : List Core) {δ σ τ : Sub}, Comp δ σ τ → substAll δ (substAll σ es) = substAll τ es
  | [], _, _, _, _ => rfl
  | e :: r, _, _, _, h => by simp only [substAll, subst_comp e h, substAll_comp r h]
end

theorem lookup_mem {k : Sym} {s : Core} : ∀ {σ : Sub}, lookup k σ = some s → (k, s) ∈ σ
  | [], h => by cases h
  | (y, t) :: r, h => by
    simp only [lookup] at h
    split at h
    · rename_i hy; cases h; subst hy; simp
    · simp [lookup_mem h]

theorem lookup_none {k : Sym} : ∀ {σ : Sub}, lookup k σ = none ↔ k ∉ σ.map Prod.fst
  | [] => by simp [lookup]
  | (y, t) :: r => by
    simp only [lookup, List.map_cons, List.mem_cons, not_or]
    by_cases h : y = k
    · simp [h]
    · simp [h, lookup_none (σ := r), Ne.symm h]

theorem lookup_append (k : Sym) : ∀ (σ τ : Sub), lookup k (σ ++ τ) = (lookup k σ).or (lookup k τ)
  | [], τ => by simp [lookup]
  | (y, t) :: r, τ => by
    simp only [List.cons_append, lookup]
    split
    · rfl
    · exact lookup_append k r τ

/-- putting a form in the place of a variable bound by a `let` -/
theorem steps_let {Γ : List Sym} {σ : Sub} {x : Sym} {val b : Core} (hs : Static Γ val)
    (hb : ∀ z ∈ val.fv, z ∉ binders (subst (shrink [x] σ) b)) (hx : ∀ k s, lookup k (shrink [x] σ) = some s → x ∉ s.fv) :
    T Γ [] (.bind x val (subst (shrink [x] σ) b)) (subst ((x, val) :: σ) b) := by
  have h1 : subst [(x, val)] (subst (shrink [x] σ) b) = subst ((x, val) :: σ) b := by
    refine subst_comp b ⟨fun k s hk z hz => ?_, fun y => ?_⟩
    · have : x ≠ z := fun e => hx k s hk (e ▸ hz)
      simp [lookup, this]
    · simp only [lookup_shrink, lookup]
      by_cases hy : x = y
      · simp [hy]
      · simp [hy, Ne.symm hy]
  rw [← h1]
  refine .letS hs (t_subst _ _ _ fun k s hk => ?_)
  simp only [lookup] at hk
  split at hk
  · cases hk; exact hb
  · cases hk

/-! ### constants -/

theorem static_of {Γ : List Sym} : ∀ {e : Core}, isStatic Γ e = true → Static Γ e := by
  intro e h
  fun_induction isStatic Γ e with
  | case1 c => exact .lit c
  | case2 d => exact .quote d
  | case3 ps b => exact .lam ps b
  | case4 x => exact .var x (by simpa using h)
  | case5 a d ih1 ih2 =>
    simp only [Bool.and_eq_true, decide_eq_true_eq] at h
    exact .cons a d h.1.1 (ih1 h.1.2) (ih2 h.2)
  | case6 => cases h

theorem const_facts {Γ : List Sym} (hΓ : .named "cons" ∉ Γ) : ∀ {e : Core}, (isConst e || isConstList e) = true →
    Static Γ e ∧ (∀ z ∈ e.fv, z = .named "cons") ∧ binders e = [] := by
  have hc : ∀ e : Core, isConst e = true → Static Γ e ∧ (∀ z ∈ e.fv, z = .named "cons") ∧ binders e = [] := by
    intro e h
    cases e with
    | lit c => exact ⟨.lit c, by simp [Core.fv], rfl⟩
    | quote d => exact ⟨.quote d, by simp [Core.fv], rfl⟩
    | _ => cases h
  have hl : ∀ e : Core, isConstList e = true → Static Γ e ∧ (∀ z ∈ e.fv, z = .named "cons") ∧ binders e = [] := by
    intro e h
    fun_induction isConstList e with
    | case1 x more ih =>
      simp only [Bool.and_eq_true] at h
      obtain ⟨s1, f1, b1⟩ := hc x h.1
      have hm : Static Γ more ∧ (∀ z ∈ more.fv, z = .named "cons") ∧ binders more = [] := by
        have h2 := h.2
        split at h2
        · exact ⟨.lit _, by simp [Core.fv], rfl⟩
        · exact ih h2
      obtain ⟨s2, f2, b2⟩ := hm
      refine ⟨.cons _ _ hΓ s1 s2, ?_, by simp [binders, bindersAll, b1, b2]⟩
      intro z hz
      simp only [Core.fv, Core.fvs, List.mem_append, List.mem_cons, List.not_mem_nil, or_false] at hz
      rcases hz with hz | hz | hz
      · exact hz
      · exact f1 z hz
      · exact f2 z hz
    | case2 => cases h
  intro e h
  rcases Bool.or_eq_true _ _ ▸ h with h | h
  · exact hc e h
  · exact hl e h

mutual
theorem binders_subst : ∀ (e : Core) (σ : Sub), (∀ k s, lookup k σ = some s → binders s = []) → binders (subst σ e) = binders e
  | .lit c, _, _ => rfl
  | .quote d, _, _ => rfl
  | .var x, σ, h => by
    simp only [subst]
    cases hx : lookup x σ with
    | none => rfl
    | some s => simpa [binders] using h x s hx
  | .lam ps b, σ, h => by
    simp only [subst, binders, binders_subst b (shrink ps σ) fun k s hk => by
      rw [lookup_shrink] at hk; split at hk
      · cases hk
      · exact h k s hk]
  | .ite a b c, σ, h => by simp only [subst, binders, binders_subst a σ h, binders_subst b σ h, binders_subst c σ h]
  | .seq a b, σ, h => by simp only [subst, binders, binders_subst a σ h, binders_subst b σ h]
  | .bind x e b, σ, h => by
    simp only [subst, binders, binders_subst e σ h, binders_subst b (shrink [x] σ) fun k s hk => by
      rw [lookup_shrink] at hk; split at hk
      · cases hk
      · exact h k s hk]
  | .app f args, σ, h => by simp only [subst, binders, binders_subst f σ h, bindersAll_subst args σ h]
theorem bindersAll_subst : ∀ (es : List Core) (σ : Sub), (∀ k s, lookup k σ = some s → binders s = []) →
    bindersAll (substAll σ es) = bindersAll es
  | [], _, _ => rfl
  | e :: r, σ, h => by simp only [substAll, bindersAll, binders_subst e σ h, bindersAll_subst r σ h]
end

/-! ### calls of functions written in place -/

theorem extendEnv_env : ∀ (ps : List Sym) (args : List Core) (σ : Sub),
    extendEnv ps args σ = ((extendEnv ps args []).1, (extendEnv ps args []).2.1, (extendEnv ps args []).2.2 ++ σ)
  | [], _, σ => rfl
  | _ :: _, [], σ => rfl
  | p :: ps, a :: as, σ => by
    simp only [extendEnv]
    split
    · rw [extendEnv_env ps as ((p, a) :: σ), extendEnv_env ps as [(p, a)]]
      simp
    · rw [extendEnv_env ps as σ]

theorem extendEnv_dom : ∀ (ps : List Sym) (args : List Core) (x : Sym),
    x ∈ ps ↔ x ∈ (extendEnv ps args []).1 ∨ x ∈ (extendEnv ps args []).2.2.map Prod.fst
  | [], _, x => by simp [extendEnv]
  | _ :: _, [], x => by simp [extendEnv]
  | p :: ps, a :: as, x => by
    simp only [extendEnv]
    split
    · rw [extendEnv_env ps as [(p, a)]]
      simp only [List.mem_cons, List.map_append, List.mem_append, List.map_cons, List.map_nil, List.not_mem_nil, or_false,
        extendEnv_dom ps as x]
      grind
    · simp only [List.mem_cons, extendEnv_dom ps as x]
      grind

theorem extendEnv_apart : ∀ (ps : List Sym) (args : List Core), ps.Nodup →
    ∀ x ∈ (extendEnv ps args []).1, x ∉ (extendEnv ps args []).2.2.map Prod.fst
  | [], _, _ => by simp [extendEnv]
  | _ :: _, [], _ => by simp [extendEnv]
  | p :: ps, a :: as, h => by
    simp only [List.nodup_cons] at h
    have ih := extendEnv_apart ps as h.2
    have hd := extendEnv_dom ps as
    simp only [extendEnv]
    split
    · rw [extendEnv_env ps as [(p, a)]]
      intro x hx
      simp only [List.map_append, List.mem_append, List.map_cons, List.map_nil, List.mem_singleton, not_or]
      exact ⟨ih x hx, fun e => h.1 ((hd p).2 (.inl (e ▸ hx)))⟩
    · intro x hx
      simp only [List.mem_cons] at hx
      rcases hx with rfl | hx
      · exact fun e => h.1 ((hd x).2 (.inr e))
      · exact ih x hx

theorem extendEnv_length : ∀ (ps : List Sym) (args : List Core), ps.length ≤ args.length →
    (extendEnv ps args []).1.length ≤ (extendEnv ps args []).2.1.length
  | [], _, _ => by simp [extendEnv]
  | _ :: _, [], h => by simp at h
  | p :: ps, a :: as, h => by
    have ih := extendEnv_length ps as (by simpa using h)
    simp only [extendEnv]
    split
    · rw [extendEnv_env ps as [(p, a)]]; exact ih
    · simpa using ih

theorem extendEnv_none : ∀ (ps : List Sym) (args : List Core) (σ : Sub),
    (∀ a ∈ args.take ps.length, (isConst a || isConstList a) = false) → extendEnv ps args σ = (ps, args, σ)
  | [], _, _, _ => rfl
  | _ :: _, [], _, _ => rfl
  | p :: ps, a :: as, σ, h => by
    simp only [extendEnv]
    rw [if_neg (by rw [h a (by simp)]; simp), extendEnv_none ps as σ fun b hb => h b (by simp [hb])]

theorem extendEnv_const : ∀ (ps : List Sym) (args : List Core) (k : Sym) (s : Core), (k, s) ∈ (extendEnv ps args []).2.2 →
    (isConst s || isConstList s) = true
  | [], _, _, _, h => by simp [extendEnv] at h
  | _ :: _, [], _, _, h => by simp [extendEnv] at h
  | p :: ps, a :: as, k, s, h => by
    simp only [extendEnv] at h
    split at h
    · rename_i ha
      rw [extendEnv_env ps as [(p, a)]] at h
      simp only [List.mem_append, List.mem_singleton] at h
      rcases h with h | h
      · exact extendEnv_const ps as k s h
      · cases h; exact ha
    · exact extendEnv_const ps as k s h

/-- constants are pulled into the body one after the other -/
theorem steps_pull {Γ : List Sym} (hΓ : .named "cons" ∉ Γ) : ∀ (ps : List Sym) (args : List Core) (p0 : List Sym) (a0 : List Core)
    (b : Core), a0.length = p0.length → ps.length ≤ args.length → ps.Nodup → .named "cons" ∉ p0 ++ ps → .named "cons" ∉ binders b →
    Steps Γ (.app (.lam (p0 ++ ps) b) (a0 ++ args))
      (.app (.lam (p0 ++ (extendEnv ps args []).1) (subst (extendEnv ps args []).2.2 b)) (a0 ++ (extendEnv ps args []).2.1))
  | [], args, p0, a0, b, _, _, _, _, _ => by simp only [extendEnv, subst_nil]; exact .refl _
  | _ :: _, [], _, _, _, _, h, _, _, _ => by simp at h
  | p :: ps, a :: as, p0, a0, b, hl, hn, hd, hc, hb => by
    simp only [List.nodup_cons] at hd
    simp only [List.length_cons, Nat.add_le_add_iff_right] at hn
    simp only [extendEnv]
    split
    · rename_i ha
      obtain ⟨hs, hf, hbd⟩ := const_facts hΓ ha
      have hs' : Static ((p0 ++ ps) ++ Γ) a := (const_facts (Γ := (p0 ++ ps) ++ Γ) (by
        simp only [List.mem_append, List.mem_cons, not_or] at hc ⊢
        exact ⟨⟨hc.1, hc.2.2⟩, hΓ⟩) ha).1
      have hf' : ∀ y ∈ a.fv, y ∉ p0 ++ ps := fun y hy => by
        rw [hf y hy]
        simp only [List.mem_append, List.mem_cons, not_or] at hc ⊢
        exact ⟨hc.1, hc.2.2⟩
      refine (Steps.one (.pull hs hf' hd.1 hl hn)).trans ?_
      have h1 : T ((p0 ++ ps) ++ Γ) [] (.bind p a b) (subst [(p, a)] b) := by
        have := steps_let (σ := []) (x := p) (b := b) hs' (fun z hz => by
          rw [shrink_nil, subst_nil, hf z hz]; exact hb) (fun k s h => by cases h)
        rwa [shrink_nil, subst_nil] at this
      refine (Steps.one (.app (.inr fun q h => by cases h)
        (.lam (fun _ _ h => by cases h) h1) (Ts.refl _ _))).trans ?_
      have hbs : binders (subst [(p, a)] b) = binders b := binders_subst b _ fun k s hk => by
        simp only [lookup] at hk
        split at hk
        · cases hk; exact hbd
        · cases hk
      have ih := steps_pull hΓ ps as p0 a0 (subst [(p, a)] b) hl hn hd.2 (by
        simp only [List.mem_append, List.mem_cons, not_or] at hc ⊢
        exact ⟨hc.1, hc.2.2⟩) (by rw [hbs]; exact hb)
      rw [extendEnv_env ps as [(p, a)]]
      have hcomp : subst (extendEnv ps as []).2.2 (subst [(p, a)] b) = subst ((extendEnv ps as []).2.2 ++ [(p, a)]) b := by
        refine subst_comp b ⟨fun k s hk z hz => ?_, fun y => ?_⟩
        · simp only [lookup] at hk
          split at hk
          · cases hk
            rw [hf z hz, lookup_none]
            intro h
            have := (extendEnv_dom ps as _).2 (.inr h)
            exact hc (by simp [this])
          · cases hk
        · rw [lookup_append]
          simp only [lookup]
          by_cases hy : p = y
          · subst hy
            have : lookup p (extendEnv ps as []).2.2 = none := lookup_none.2 fun h => hd.1 ((extendEnv_dom ps as p).2 (.inr h))
            simp [this]
          · simp [hy]
      rw [← hcomp]
      exact ih
    · have ih := steps_pull hΓ ps as (p0 ++ [p]) (a0 ++ [a]) b (by simp [hl]) hn hd.2 (by simpa using hc) hb
      simpa using ih

/-- a call of a function written in place -/
theorem steps_call {Γ : List Sym} {σ : Sub} {ps : List Sym} {args : List Core} {b b' : Core}
    (hc : callHarmless Γ σ ps args b = true)
    (hb : Steps ((extendEnv ps args σ).1 ++ Γ) (subst (shrink (extendEnv ps args σ).1 (extendEnv ps args σ).2.2) b) b') :
    Steps Γ (.app (.lam ps b) args) (applyLambda (extendEnv ps args σ).1 (extendEnv ps args σ).2.1 b') := by
  simp only [callHarmless, Bool.and_eq_true, Bool.or_eq_true, decide_eq_true_eq, apart, List.all_eq_true] at hc
  obtain ⟨hfv, hc⟩ := hc
  have hσ : ∀ x ∈ b.fv, x ∉ ps → lookup x σ = none := fun x hx hp => by
    have := lookup_none.2 (hfv x hx)
    rwa [lookup_shrink, if_neg hp] at this
  rcases hc with hc | ⟨⟨hl, hd⟩, hcons⟩
  · rw [extendEnv_none ps args σ hc] at hb ⊢
    simp only at hb ⊢
    rw [subst_id fun x hx => lookup_none.2 (hfv x hx)] at hb
    cases args with
    | nil =>
      cases ps with
      | nil => exact (Steps.one .run).trans hb
      | cons p ps => exact (Steps.one (.leave (by simp))).trans hb.lam
    | cons a as =>
      have : applyLambda ps (a :: as) b' = .app (.lam ps b') (a :: as) := by cases ps <;> rfl
      rw [this]
      exact hb.lam.op (.inr fun q h => by cases h)
  · simp only [List.mem_append, not_or] at hcons
    have h1 := steps_pull (Γ := Γ) hcons.2.1 ps args [] [] b rfl hl hd (by simpa using hcons.1) hcons.2.2
    rw [extendEnv_env ps args σ] at hb ⊢
    simp only [List.nil_append] at h1 hb ⊢
    have h2 : subst (extendEnv ps args []).2.2 b = subst (shrink (extendEnv ps args []).1 ((extendEnv ps args []).2.2 ++ σ)) b := by
      refine subst_congr b _ _ fun x hx => ?_
      rw [lookup_shrink]
      by_cases hx1 : x ∈ (extendEnv ps args []).1
      · rw [if_pos hx1]
        exact lookup_none.2 (extendEnv_apart ps args hd x hx1)
      · rw [if_neg hx1, lookup_append]
        cases hk : lookup x (extendEnv ps args []).2.2 with
        | some s => rfl
        | none =>
          have hp : x ∉ ps := fun h => by
            rcases (extendEnv_dom ps args x).1 h with h | h
            · exact hx1 h
            · exact lookup_none.1 hk h
          simp [hσ x hx hp]
    rw [h2] at h1
    refine h1.trans ?_
    have hlen := extendEnv_length ps args hl
    cases ha : (extendEnv ps args []).2.1 with
    | nil =>
      rw [ha] at hlen
      simp only [List.length_nil, Nat.le_zero, List.length_eq_zero_iff] at hlen
      rw [hlen] at hb ⊢
      exact (Steps.one .run).trans hb
    | cons a as =>
      have : applyLambda (extendEnv ps args []).1 (a :: as) b' = .app (.lam (extendEnv ps args []).1 b') (a :: as) := by
        cases (extendEnv ps args []).1 <;> rfl
      rw [this]
      exact hb.lam.op (.inr fun q h => by cases h)

/-- folding a call of a builtin function -/
theorem steps_fold {Γ : List Sym} {f r : Core} {args : List Core} (h : headOf f args = .builtin r)
    (hb : builtinHarmless Γ f args = true) : T Γ [] (.app f args) r := by
  unfold headOf at h
  split at h
  · rename_i p args
    split at h
    · rename_i r' hr
      cases h
      simp only [builtinHarmless] at hb
      unfold foldHarmless at hb
      split at hb <;> try simp only [Bool.and_eq_true, decide_eq_true_eq] at hb
      · simp only [foldCall] at hr
        cases hr
        exact .consS hb.1.1.1 hb.1.1.2 (static_of hb.1.2) (static_of hb.2)
      · simp only [foldCall] at hr
        cases hr
        exact .carS hb.1.1 hb.1.2 (static_of hb.2)
      · simp only [foldCall] at hr
        cases hr
        exact .cdrS hb.1.1 hb.1.2 (static_of hb.2)
      · rename_i b
        have : r = .lit (.bool (!b)) := by cases b <;> (simp only [foldCall] at hr; cases hr; rfl)
        subst this
        exact .notS hb
      · simp only [foldCall] at hr
        cases hr
        exact .plusS hb
      · simp only [foldCall] at hr
        cases hr
        exact .minusS hb
      · cases hb
    · cases h
  · cases h
  · cases h

theorem headOf_lambda {f b : Core} {args : List Core} {ps : List Sym} (h : headOf f args = .lambda ps b) : f = .lam ps b := by
  unfold headOf at h
  split at h
  · split at h <;> cases h
  · cases h; rfl
  · cases h

theorem testOf_yes {v : Core} (h : testOf v = .yes) : v = .lit (.bool true) := by
  unfold testOf at h
  split at h <;> first | rfl | cases h

theorem testOf_no {v : Core} (h : testOf v = .no) : v = .lit (.bool false) := by
  unfold testOf at h
  split at h <;> first | rfl | cases h

/-- dropping a variable that does not occur -/
theorem subst_drop {σ : Sub} {x : Sym} {b : Core} (h : x ∉ b.fv) : subst (shrink [x] σ) b = subst σ b :=
  subst_congr b _ _ fun y hy => by
    have : y ≠ x := fun e => h (e ▸ hy)
    rw [lookup_shrink]; simp [this]

theorem opOk_of {f f' : Core} (h : (isSymbol f || !isPrimName f') = true) : OpOk f f' := by
  rcases Bool.or_eq_true _ _ ▸ h with h | h
  · cases f with
    | var x => exact .inl ⟨x, rfl⟩
    | _ => cases h
  · refine .inr fun p hp => ?_
    subst hp
    simpa [isPrimName] using h

theorem mapM_steps {Γ : List Sym} {n : Nat} {σ : Sub}
    (ih : ∀ e e', peval n σ e = some e' → harmless n Γ σ e = true → Steps Γ (subst σ e) e') : ∀ {args args' : List Core},
    args.mapM (peval n σ) = some args' → args.all (harmless n Γ σ) = true → StepsAll Γ (substAll σ args) args'
  | [], args', h, _ => by
    simp at h
    subst h
    exact .nil
  | e :: es, args', h, hh => by
    simp only [List.mapM_cons, Option.bind_eq_bind, Option.bind_eq_some_iff, Option.pure_def, Option.some.injEq] at h
    obtain ⟨e', h1, es', h2, rfl⟩ := h
    simp only [List.all_cons, Bool.and_eq_true] at hh
    exact .cons (ih e e' h1 hh.1) (mapM_steps ih h2 hh.2)

theorem unused_of {σ : Sub} {x : Sym} (h : unused σ x = true) (k : Sym) (s : Core) (hk : lookup k (shrink [x] σ) = some s) :
    x ∉ s.fv := by
  simp only [unused, List.all_eq_true, decide_eq_true_eq] at h
  exact h _ (lookup_mem hk)

theorem static_safe {Γ : List Sym} {val : Core} (hs : settled Γ val = true)
    (h : isConst val = true ∨ isSymbol val = true ∨ isConstList val = true ∨ isLambda val = true) : Static Γ val := by
  rcases h with h | h | h | h
  · cases val with
    | lit c => exact .lit c
    | quote d => exact .quote d
    | _ => cases h
  · cases val with
    | var x => exact .var x (by simpa [settled] using hs)
    | _ => cases h
  · have hc : .named "cons" ∉ Γ := by
      unfold settled at hs
      split at hs
      · cases h
      · simpa [h] using hs
    exact (const_facts hc (by simp [h])).1
  · cases val with
    | lam ps b => exact .lam ps b
    | _ => cases h

theorem safe_cases {val : Core} (h : sideEffectFree val = true) :
    isConst val = true ∨ isSymbol val = true ∨ isConstList val = true ∨ isLambda val = true := by
  simp only [sideEffectFree, Bool.or_eq_true] at h
  rcases h with (h | h) | h
  · exact .inr (.inr (.inr h))
  · exact .inl h
  · exact .inr (.inr (.inl h))

/-- what `peval-let` has checked before it substitutes -/
theorem plan_subst {Γ : List Sym} {x : Sym} {val b : Core} (h : letPlan x val b = .subst) (hs : settled Γ val = true) :
    Static Γ val := by
  unfold letPlan at h
  split at h
  · rename_i h1
    refine static_safe hs ?_
    simp only [Bool.or_eq_true, Bool.and_eq_true] at h1
    rcases h1 with (h1 | h1) | h1
    · exact .inl h1
    · exact .inr (.inl h1)
    · exact .inr (.inr (.inl h1.1))
  · split at h
    · split at h <;> cases h
    · split at h
      · rename_i h1
        exact static_safe hs (safe_cases h1.2)
      · cases h

/-- what `peval-let` has checked before it drops a variable -/
theorem plan_drop {Γ : List Sym} {x : Sym} {val b : Core} (h : letPlan x val b = .drop) (hs : settled Γ val = true) :
    Static Γ val ∧ refCount x b = 0 := by
  unfold letPlan at h
  split at h
  · cases h
  · split at h
    · rename_i h0
      split at h
      · rename_i h1
        exact ⟨static_safe hs (safe_cases h1), h0⟩
      · cases h
    · split at h <;> cases h

theorem plan_seq {x : Sym} {val b : Core} (h : letPlan x val b = .seq) : refCount x b = 0 := by
  unfold letPlan at h
  split at h
  · cases h
  · split at h
    · assumption
    · split at h <;> cases h

mutual
/-- a variable that is not counted does not occur -/
theorem refCount_zero {x : Sym} (hx : x ≠ .named "cons") : ∀ {e : Core}, refCount x e = 0 → x ∉ e.fv
  | .lit _, _ => by simp [Core.fv]
  | .quote _, _ => by simp [Core.fv]
  | .var y, h => by
    simp only [refCount] at h
    split at h
    · cases h
    · simp only [Core.fv, List.mem_singleton]; assumption
  | .ite a b c, h => by
    simp only [refCount] at h
    have := refCount_zero hx (e := a) (by omega)
    have := refCount_zero hx (e := b) (by omega)
    have := refCount_zero hx (e := c) (by omega)
    simp only [Core.fv, List.mem_append]
    grind
  | .seq a b, h => by
    simp only [refCount] at h
    have := refCount_zero hx (e := a) (by omega)
    have := refCount_zero hx (e := b) (by omega)
    simp only [Core.fv, List.mem_append]
    grind
  | .bind y e b, h => by
    simp only [refCount] at h
    have h1 := refCount_zero hx (e := e) (by omega)
    simp only [Core.fv, List.mem_append, List.mem_filter, decide_eq_true_eq]
    by_cases hy : y = x
    · subst hy; grind
    · rw [if_neg hy] at h
      have h2 := refCount_zero hx (e := b) (by omega)
      grind
  | .lam ps b, h => by
    simp only [refCount] at h
    simp only [Core.fv, List.mem_filter, decide_eq_true_eq]
    split at h
    · grind
    · have := refCount_zero hx (e := b) h
      grind
  | .app f args, h => by
    simp only [refCount] at h
    split at h
    · rename_i hc
      intro hm
      exact hx ((const_facts (Γ := []) (by simp) (by simp [hc])).2.1 x hm)
    · have h1 := refCount_zero hx (e := f) (by omega)
      have h2 := refCounts_zero hx (es := args) (by omega)
      simp only [Core.fv, List.mem_append]
      grind
theorem refCounts_zero {x : Sym} (hx : x ≠ .named "cons") : ∀ {es : List Core}, refCounts x es = 0 → x ∉ Core.fvs es
  | [], _ => by simp [Core.fvs]
  | e :: r, h => by
    simp only [refCounts] at h
    have h1 := refCount_zero hx (e := e) (by omega)
    have h2 := refCounts_zero hx (es := r) (by omega)
    simp only [Core.fvs, List.mem_append]
    grind
end

mutual
theorem fv_subst : ∀ (e : Core) (σ : Sub) (x : Sym), x ∈ (subst σ e).fv → x ∈ e.fv ∨ ∃ k s, lookup k σ = some s ∧ x ∈ s.fv
  | .lit _, _, _, h => by simp [subst, Core.fv] at h
  | .quote _, _, _, h => by simp [subst, Core.fv] at h
  | .var y, σ, x, h => by
    simp only [subst] at h
    cases hy : lookup y σ with
    | none => rw [hy] at h; exact .inl h
    | some s => rw [hy] at h; exact .inr ⟨y, s, hy, h⟩
  | .ite a b c, σ, x, h => by
    simp only [subst, Core.fv, List.mem_append] at h ⊢
    have := fv_subst a σ x
    have := fv_subst b σ x
    have := fv_subst c σ x
    grind
  | .seq a b, σ, x, h => by
    simp only [subst, Core.fv, List.mem_append] at h ⊢
    have := fv_subst a σ x
    have := fv_subst b σ x
    grind
  | .lam ps b, σ, x, h => by
    simp only [subst, Core.fv, List.mem_filter, decide_eq_true_eq] at h ⊢
    rcases fv_subst b _ x h.1 with h1 | ⟨k, s, h1, h2⟩
    · exact .inl ⟨h1, h.2⟩
    · rw [lookup_shrink] at h1
      split at h1
      · cases h1
      · exact .inr ⟨k, s, h1, h2⟩
  | .bind y e b, σ, x, h => by
    simp only [subst, Core.fv, List.mem_append, List.mem_filter, decide_eq_true_eq] at h ⊢
    rcases h with h | h
    · rcases fv_subst e σ x h with h | h
      · exact .inl (.inl h)
      · exact .inr h
    · rcases fv_subst b _ x h.1 with h1 | ⟨k, s, h1, h2⟩
      · exact .inl (.inr ⟨h1, h.2⟩)
      · rw [lookup_shrink] at h1
        split at h1
        · cases h1
        · exact .inr ⟨k, s, h1, h2⟩
  | .app f args, σ, x, h => by
    simp only [subst, Core.fv, List.mem_append] at h ⊢
    have := fv_subst f σ x
    have := fvs_subst args σ x
    grind
theorem fvs_subst : ∀ (es : List Core) (σ : Sub) (x : Sym), x ∈ Core.fvs (substAll σ es) →
    x ∈ Core.fvs es ∨ ∃ k s, lookup k σ = some s ∧ x ∈ s.fv
  | [], _, _, h => by simp [substAll, Core.fvs] at h
  | e :: r, σ, x, h => by
    simp only [substAll, Core.fvs, List.mem_append] at h ⊢
    have := fv_subst e σ x
    have := fvs_subst r σ x
    grind
end

theorem fv_subst_none {σ : Sub} {x : Sym} {b : Core} (h : x ∉ b.fv) (hσ : ∀ k s, lookup k σ = some s → x ∉ s.fv) :
    x ∉ (subst σ b).fv := fun hx => by
  rcases fv_subst b σ x hx with h1 | ⟨k, s, h1, h2⟩
  · exact h h1
  · exact hσ k s h1 h2

/-- a harmless run of the partial evaluator is a sequence of layers of simplification -/
theorem peval_steps : ∀ (n : Nat) (Γ : List Sym) (σ : Sub) (e e' : Core), peval n σ e = some e' → harmless n Γ σ e = true →
    Steps Γ (subst σ e) e'
  | 0, _, _, _, _, h, _ => by cases h
  | n + 1, Γ, σ, .var x, e', h, _ => by simp only [peval] at h; cases h; exact .refl _
  | n + 1, Γ, σ, .quote d, e', h, _ => by simp only [peval] at h; cases h; exact .refl _
  | n + 1, Γ, σ, .lit c, e', h, _ => by simp only [peval] at h; cases h; exact .refl _
  | n + 1, Γ, σ, .ite a b c, e', h, hh => by
    simp only [peval, Option.bind_eq_bind, Option.bind_eq_some_iff] at h
    obtain ⟨v, hv, h⟩ := h
    simp only [harmless, hv, Option.map_some, Bool.and_eq_true] at hh
    have ha := peval_steps n Γ σ a v hv hh.1
    have hh2 := hh.2
    cases ht : testOf v with
    | yes =>
      rw [ht] at h hh2
      simp only at h hh2
      rw [testOf_yes ht] at ha
      exact ((ha.ite (.refl _) (.refl _)).trans (.one .iteT)).trans (peval_steps n Γ σ b e' h hh2)
    | no =>
      rw [ht] at h hh2
      simp only at h hh2
      rw [testOf_no ht] at ha
      exact ((ha.ite (.refl _) (.refl _)).trans (.one .iteF)).trans (peval_steps n Γ σ c e' h hh2)
    | «open» =>
      rw [ht] at h hh2
      simp only [Option.bind_eq_some_iff, Option.some.injEq, Bool.and_eq_true] at h hh2
      obtain ⟨b', hb, c', hc, rfl⟩ := h
      exact ha.ite (peval_steps n Γ σ b b' hb hh2.1) (peval_steps n Γ σ c c' hc hh2.2)
  | n + 1, Γ, σ, .seq a b, e', h, hh => by
    simp only [peval, Option.bind_eq_bind, Option.bind_eq_some_iff, Option.some.injEq] at h
    obtain ⟨a', ha, b', hb, rfl⟩ := h
    simp only [harmless, Bool.and_eq_true] at hh
    have h1 := (peval_steps n Γ σ a a' ha hh.1).seq (peval_steps n Γ σ b b' hb hh.2)
    split
    · rename_i hl
      refine h1.trans (.one (.seqS ?_))
      cases a' with
      | lam ps b => exact .lam ps b
      | _ => cases hl
    · exact h1
  | n + 1, Γ, σ, .lam ps b, e', h, hh => by
    simp only [peval, Option.bind_eq_bind, Option.bind_eq_some_iff, Option.some.injEq] at h
    obtain ⟨b', hb, rfl⟩ := h
    simp only [harmless] at hh
    exact (peval_steps n (ps ++ Γ) (shrink ps σ) b b' hb hh).lam
  | n + 1, Γ, σ, .bind x e b, e', h, hh => by
    simp only [peval, Option.bind_eq_bind, Option.bind_eq_some_iff] at h
    obtain ⟨val, hv, h⟩ := h
    simp only [harmless, hv, Bool.and_eq_true] at hh
    have he := peval_steps n Γ σ e val hv hh.1
    have hh2 := hh.2
    refine (he.bind (.refl _) : Steps Γ (subst σ (.bind x e b)) (.bind x val (subst (shrink [x] σ) b))).trans ?_
    cases hp : letPlan x val b with
    | subst =>
      rw [hp] at h hh2
      simp only [Bool.and_eq_true, substHarmless, apart, List.all_eq_true, decide_eq_true_eq] at h hh2
      obtain ⟨⟨⟨h1, h2⟩, h3⟩, h4⟩ := hh2
      exact (Steps.one (steps_let (plan_subst hp h1) h2 fun k s hk => unused_of h3 k s hk)).trans
        (peval_steps n Γ ((x, val) :: σ) b e' h h4)
    | drop =>
      rw [hp] at h hh2
      simp only [Bool.and_eq_true, dropHarmless, decide_eq_true_eq] at h hh2
      obtain ⟨⟨⟨h1, hc⟩, h3⟩, h4⟩ := hh2
      have h2 := refCount_zero hc (plan_drop hp h1).2
      refine (Steps.one (.drop (plan_drop hp h1).1 (fv_subst_none h2 fun k s hk => unused_of h3 k s hk))).trans ?_
      rw [subst_drop h2]
      exact peval_steps n Γ σ b e' h h4
    | seq =>
      rw [hp] at h hh2
      simp only [Bool.and_eq_true, dropHarmless, decide_eq_true_eq, Option.bind_eq_some_iff, Option.some.injEq] at h hh2
      obtain ⟨⟨⟨h1, hc⟩, h3⟩, h4⟩ := hh2
      obtain ⟨b', hb, rfl⟩ := h
      have h2 := refCount_zero hc (plan_seq hp)
      refine (Steps.one (.toSeq (fv_subst_none h2 fun k s hk => unused_of h3 k s hk))).trans ?_
      rw [subst_drop h2]
      exact (Steps.refl _).seq (peval_steps n Γ σ b b' hb h4)
    | keep =>
      rw [hp] at h hh2
      simp only [Option.bind_eq_some_iff, Option.some.injEq] at h hh2
      obtain ⟨b', hb, rfl⟩ := h
      exact (Steps.refl _).bind (peval_steps n (x :: Γ) (shrink [x] σ) b b' hb hh2)
  | n + 1, Γ, σ, .app f args, e', h, hh => by
    simp only [peval, Option.bind_eq_bind, Option.bind_eq_some_iff] at h
    obtain ⟨f', hf, args', ha, h⟩ := h
    simp only [harmless, hf, ha, Bool.and_eq_true] at hh
    obtain ⟨⟨h1, h2⟩, h3, h4⟩ := hh
    have hsf := peval_steps n Γ σ f f' hf h1
    have hsa := mapM_steps (fun e e' => peval_steps n Γ σ e e') ha h2
    have h5 : Steps Γ (subst σ (.app f args)) (.app f' args') :=
      (hsf.op (opOk_of h3)).trans (hsa.app [])
    refine h5.trans ?_
    cases hd : headOf f' args' with
    | builtin r =>
      rw [hd] at h h4
      simp only [Option.some.injEq] at h h4
      subst h
      exact .one (steps_fold hd h4)
    | «lambda» ps b =>
      rw [hd] at h h4
      simp only [Option.bind_eq_some_iff, Option.some.injEq, Bool.and_eq_true] at h h4
      obtain ⟨b', hb, rfl⟩ := h
      rw [headOf_lambda hd]
      exact steps_call h4.1 (peval_steps n _ _ b b' hb h4.2)
    | other =>
      rw [hd] at h
      simp only [Option.some.injEq] at h
      subst h
      exact .refl _

/-! ### sessions -/

variable {W : Type} {E : Ext W}

theorem same_refl {w : World W} : SameWorld (VRel E) w w := ⟨rfl, fun _ h => h, fun _ v h => ⟨v, h, vrel_refl v⟩⟩

mutual
theorem looks_trans : ∀ {a b c : Val}, Looks a b → Looks b c → Looks a c
  | .pap _ _, _, _, .pap h1 h2, .pap h3 h4 => .pap (looks_trans h1 h3) (looksAll_trans h2 h4)
  | .cons _ _, _, _, .cons h1 h2, .cons h3 h4 => .cons (looks_trans h1 h3) (looks_trans h2 h4)
  | .int n, _, _, .int _, .int _ => .int n
  | .bool n, _, _, .bool _, .bool _ => .bool n
  | .nil, _, _, .nil, .nil => .nil
  | .str n, _, _, .str _, .str _ => .str n
  | .sym n, _, _, .sym _, .sym _ => .sym n
  | .prim n, _, _, .prim _, .prim _ => .prim n
  | .native i n, _, _, .native _ _, .native _ _ => .native i n
  | .clo _ _ _, _, _, .clo h1, .clo h2 => .clo (h1.trans h2)
theorem looksAll_trans : ∀ {a b c : List Val}, LooksAll a b → LooksAll b c → LooksAll a c
  | [], _, _, .nil, .nil => .nil
  | _ :: _, _, _, .cons h1 h2, .cons h3 h4 => .cons (looks_trans h1 h3) (looksAll_trans h2 h4)
end

theorem vrels_looks : ∀ {us vs : List Val}, VRels E us vs → LooksAll us vs
  | [], _, h => by cases h; exact .nil
  | _ :: _, _, h => by cases h with | cons h1 h2 => exact .cons (vrel_looks h1) (vrels_looks h2)

theorem same_looks {w w' : World W} (h : SameWorld (VRel E) w w') : SameWorld Looks w w' :=
  ⟨h.rest, h.unset, fun x v hx => by obtain ⟨v', h1, h2⟩ := h.globals x v hx; exact ⟨v', h1, vrel_looks h2⟩⟩

theorem looks_same_trans {w w' w'' : World W} (h : SameWorld Looks w w') (h' : SameWorld Looks w' w'') : SameWorld Looks w w'' :=
  ⟨h.rest.trans h'.rest, fun x hx => h'.unset x (h.unset x hx), fun x v hx => by
    obtain ⟨v', h1, h2⟩ := h.globals x v hx
    obtain ⟨v'', h3, h4⟩ := h'.globals x v' h1
    exact ⟨v'', h3, looks_trans h2 h4⟩⟩

/-- a layer over a whole session -/
theorem runs_layer (hE : E.BlackBox) (hA : E.Adds) {w : World W} {es : List Core} {vs : List Val} {w1 : World W}
    (h : Runs E w es vs w1) : ∀ {es' : List Core} {w' : World W}, Ts [] [] es es' → SameWorld (VRel E) w w' →
    ∃ vs' w1', Runs E w' es' vs' w1' ∧ VRels E vs vs' ∧ SameWorld (VRel E) w1 w1' := by
  induction h with
  | nil w => intro es' w' hT hw; cases hT; exact ⟨[], w', .nil _, .nil, hw⟩
  | cons w e es v vs w1 w2 h1 h2 ih =>
    intro es' w' hT hw
    cases hT with
    | cons hT1 hT2 =>
      obtain ⟨v', w1', h3, h4, h5⟩ := (sim hE hA).1 _ _ _ _ _ h1 [] [] _ [] (fun _ => .nil) w' hT1
        ⟨fun x _ => by simp [find], fun x _ _ => ⟨rfl, rfl⟩, (fun x _ v h => by cases h), (fun x _ v h => by cases h)⟩ hw
      obtain ⟨vs', w2', h6, h7, h8⟩ := ih hT2 h5
      exact ⟨v' :: vs', w2', .cons _ _ _ _ _ _ _ h3 h6, .cons h4 h7, h8⟩

/-- several layers over a whole session -/
inductive Layers : List Core → List Core → Prop where
  | refl (es) : Layers es es
  | head {es es1 es2} : Ts [] [] es es1 → Layers es1 es2 → Layers es es2

theorem Layers.trans {a b c} (h : Layers a b) (h' : Layers b c) : Layers a c := by
  induction h with
  | refl => exact h'
  | head h1 _ ih => exact .head h1 (ih h')

theorem Layers.cons {e : Core} {es es' : List Core} (h : Layers es es') : Layers (e :: es) (e :: es') := by
  induction h with
  | refl => exact .refl _
  | head h1 _ ih => exact .head (.cons (T.refl _ _) h1) ih

theorem layers_head {e e' : Core} {es : List Core} (h : Steps [] e e') : Layers (e :: es) (e' :: es) := by
  induction h with
  | refl => exact .refl _
  | head h1 _ ih => exact .head (.cons h1 (Ts.refl _ _)) ih

theorem layers_all {es es' : List Core} (h : StepsAll [] es es') : Layers es es' := by
  induction h with
  | nil => exact .refl _
  | cons h1 _ ih => exact (layers_head h1).trans ih.cons

theorem runs_layers (hE : E.BlackBox) (hA : E.Adds) {es es' : List Core} (h : Layers es es') : ∀ {w : World W} {vs : List Val} {w1 : World W},
    Runs E w es vs w1 → ∃ vs' w1', Runs E w es' vs' w1' ∧ LooksAll vs vs' ∧ SameWorld Looks w1 w1' := by
  induction h with
  | refl => intro w vs w1 h; exact ⟨vs, w1, h, vrels_looks (E := E) (vrels_refl vs), same_looks (E := E) same_refl⟩
  | head h1 _ ih =>
    intro w vs w1 h
    obtain ⟨vs', w1', h2, h3, h4⟩ := runs_layer hE hA h h1 same_refl
    obtain ⟨vs'', w1'', h5, h6, h7⟩ := ih h2
    exact ⟨vs'', w1'', h5, looksAll_trans (vrels_looks h3) h6, looks_same_trans (same_looks h4) h7⟩

end Cora.Peval
