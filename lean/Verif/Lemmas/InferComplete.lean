import Verif.Lemmas.InferCheck
/-
Programs with a simple type are accepted.
-/
open Spec.Types
namespace Cora.Infer

/-- types that some assignment makes equal are unified -/
theorem unify_solvable {θ : Nat → Ty} {u v : Ty} {s : Subst} (hw : WF s) (hs : Solves θ s) (h : u.inst θ = v.inst θ) :
    ∃ n s', (∀ m, n ≤ m → unify m u v s = some (.succ s')) ∧ WF s' ∧ Solves θ s' ∧
      ∀ V : Nat → Prop, (∀ y, u.has y → V y) → (∀ y, v.has y → V y) → SubIn V s → SubIn V s' := by
  have hf : Fine u v s := .inl ⟨θ, hs, h⟩
  obtain ⟨n, r, hr⟩ := unify_total hw hf
  cases r with
  | fail => exact absurd h (unify_fail hr θ hs)
  | succ s' =>
    obtain ⟨g1, _, g3, _⟩ := unify_ext hr hw hf
    exact ⟨n, s', fun m hm => unify_mono hm hr, g1, (unify_mg hr θ).mpr ⟨hs, h⟩,
      fun V hu hv hV => g3 V ⟨hu, hv, fun p hp => (hV p hp).1, fun p hp => (hV p hp).2⟩⟩

/-- what is true of the parts of a call of the checker, with any types -/
structure Ok (env : List (String × Ty)) (t : Ty) (s : Subst) (σ : St) : Prop where
  wf : WF s
  sub : SubIn (· < σ.next) s
  env : EnvIn (· < σ.next) env
  ty : ∀ y, t.has y → y < σ.next

theorem Ok.fresh {env env' : List (String × Ty)} {t t' : Ty} {s : Subst} {σ : St} (h : Ok env t s σ) (k : Nat)
    (he : ∀ p ∈ env', p ∈ env ∨ ∃ v, p.2 = .var v ∧ v < σ.next + k) (hv : ∀ y, t'.has y → y < σ.next + k) :
    Ok env' t' s (σ.tvars k) :=
  { wf := h.wf
    sub := fun p hp => ⟨Nat.lt_add_right k (h.sub p hp).1, fun y hy => Nat.lt_add_right k ((h.sub p hp).2 y hy)⟩
    env := fun p hp y hy => (he p hp).elim (fun hp => Nat.lt_add_right k (h.env p hp y hy)) fun ⟨v, hv, hl⟩ => by
      rw [hv] at hy; cases hy; exact hl
    ty := hv }

/-- the checker accepts, and some assignment that is as before on the old variables solves the answer -/
def Accepts (e : Exp) (t : Ty) (env : List (String × Ty)) (s : Subst) (σ : St) (θ : Nat → Ty) : Prop :=
  ∃ n s' σ', (∀ m, n ≤ m → checkH m e t env s σ = some (.succ s', σ')) ∧
    (∀ m, n ≤ m → check m e t env s σ = some (.succ s', σ')) ∧ WF s' ∧ SubIn (· < σ'.next) s' ∧ σ.next ≤ σ'.next ∧
    σ'.tenv = σ.tenv ∧ ∃ θ', Solves θ' s' ∧ ∀ y, y < σ.next → θ' y = θ y

theorem accepts_of {e : Exp} {t : Ty} {env : List (String × Ty)} {s : Subst} {σ : St} {θ : Nat → Ty} {n : Nat} {s' : Subst}
    {σ' : St} (he : e ≠ .nil) (he' : ∀ x y, e ≠ .consE x y) (h : ∀ m, n ≤ m → checkH m e t env s σ = some (.succ s', σ'))
    (h1 : WF s') (h2 : SubIn (· < σ'.next) s') (h3 : σ.next ≤ σ'.next) (h4 : σ'.tenv = σ.tenv) (θ' : Nat → Ty)
    (h5 : Solves θ' s') (h6 : ∀ y, y < σ.next → θ' y = θ y) : Accepts e t env s σ θ := by
  refine ⟨n + 1, s', σ', fun m hm => h m (by omega), fun m hm => ?_, h1, h2, h3, h4, θ', h5, h6⟩
  cases m with
  | zero => omega
  | succ m =>
    have := h m (by omega)
    cases t with
    | list a =>
      simpa only [check] using this
    | _ => simpa only [check] using this

theorem accepts_unify {e : Exp} {t T : Ty} {env : List (String × Ty)} {s : Subst} {σ : St} {θ : Nat → Ty}
    (he : e ≠ .nil) (he' : ∀ x y, e ≠ .consE x y) (h : ∀ m, checkH (m + 1) e t env s σ = unifyS m T t s σ)
    (ho : Ok env t s σ) (hs : Solves θ s) (hT : ∀ y, T.has y → y < σ.next) (heq : T.inst θ = t.inst θ) :
    Accepts e t env s σ θ := by
  obtain ⟨n, s', h1, h2, h3, h4⟩ := unify_solvable ho.wf hs heq
  refine accepts_of (n := n + 1) (s' := s') (σ' := σ) he he' (fun m hm => ?_) h2 (h4 _ hT ho.ty ho.sub) (Nat.le_refl _) rfl θ h3
    (fun _ _ => rfl)
  cases m with
  | zero => omega
  | succ m => rw [h m]; simp only [unifyS, h1 m (by omega), Option.map_some]

theorem instEnv_congr {θ θ' : Nat → Ty} {env : List (String × Ty)} {N : Nat} (he : EnvIn (· < N) env)
    (h : ∀ y, y < N → θ' y = θ y) : instEnv θ' env = instEnv θ env :=
  List.map_congr_left fun p hp => by rw [inst_congr fun y hy => h y (he p hp y hy)]

theorem check_complete {tenv : List (String × Ty)} {decl : String → Option Ty}
    (hdecl : ∀ x T, decl x = some T → look x tenv = some T ∧ T.ground) {Γ : List (String × Ty)} {e : Exp} {T : Ty}
    (h : HasType decl Γ e T) : ∀ {env : List (String × Ty)} {t : Ty} {s : Subst} {σ : St} {θ : Nat → Ty},
      Γ = instEnv θ env → T = t.inst θ → Ok env t s σ → σ.tenv = tenv → Solves θ s → Accepts e t env s σ θ := by
  induction h with
  | num =>
    intro env t s σ θ hΓ hT ho ht hs
    exact accepts_unify (T := .con "int") (by simp) (by simp) (fun m => by simp only [checkH]) ho hs (fun y hy => by cases hy) hT
  | bool =>
    intro env t s σ θ hΓ hT ho ht hs
    exact accepts_unify (T := .con "bool") (by simp) (by simp) (fun m => by simp only [checkH]) ho hs (fun y hy => by cases hy) hT
  | str =>
    intro env t s σ θ hΓ hT ho ht hs
    exact accepts_unify (T := .con "string") (by simp) (by simp) (fun m => by simp only [checkH]) ho hs (fun y hy => by cases hy) hT
  | quote =>
    intro env t s σ θ hΓ hT ho ht hs
    exact accepts_unify (T := .con "symbol") (by simp) (by simp) (fun m => by simp only [checkH]) ho hs (fun y hy => by cases hy) hT
  | @loc Γ x T hx =>
    intro env t s σ θ hΓ hT ho ht hs
    subst hΓ
    rw [look_inst] at hx
    cases hl : look x env with
    | none => rw [hl] at hx; cases hx
    | some U =>
      rw [hl] at hx
      have hx := Option.some.inj hx
      exact accepts_unify (by simp) (by simp) (fun m => by simp only [checkH, hl]) ho hs (fun y hy => ho.env _ (look_mem hl) y hy)
        (hx.trans hT)
  | @glob Γ x T hx hd =>
    intro env t s σ θ hΓ hT ho ht hs
    subst hΓ
    rw [look_inst] at hx
    have hl : look x env = none := by
      cases hl : look x env with
      | none => rfl
      | some U => rw [hl] at hx; cases hx
    obtain ⟨h1, h2⟩ := hdecl x T hd
    exact accepts_unify (by simp) (by simp) (fun m => by simp only [checkH, hl, ht, h1]) ho hs (fun y hy => absurd hy (h2 y))
      ((inst_ground h2).trans hT)
  | @ite Γ c a b T _ _ _ ihc iha ihb =>
    intro env t s σ θ hΓ hT ho ht hs
    obtain ⟨n1, s1, σ1, c1, _, w1, b1, l1, t1, θ1, v1, e1⟩ := ihc (t := .con "bool") hΓ rfl
      ⟨ho.wf, ho.sub, ho.env, fun y hy => by cases hy⟩ ht hs
    obtain ⟨n2, s2, σ2, _, c2, w2, b2, l2, t2, θ2, v2, e2⟩ := iha (t := t) (s := s1) (σ := σ1) (θ := θ1)
      (by rw [hΓ, instEnv_congr ho.env e1]) (by rw [hT]; exact inst_congr fun y hy => (e1 y (ho.ty y hy)).symm)
      ⟨w1, b1, fun p hp y hy => Nat.lt_of_lt_of_le (ho.env p hp y hy) l1, fun y hy => Nat.lt_of_lt_of_le (ho.ty y hy) l1⟩
      (by rw [t1, ht]) v1
    have e12 : ∀ y, y < σ.next → θ2 y = θ y := fun y hy => (e2 y (by omega)).trans (e1 y hy)
    obtain ⟨n3, s3, σ3, _, c3, w3, b3, l3, t3, θ3, v3, e3⟩ := ihb (t := t) (s := s2) (σ := σ2) (θ := θ2)
      (by rw [hΓ, instEnv_congr ho.env e12]) (by rw [hT]; exact inst_congr fun y hy => (e12 y (ho.ty y hy)).symm)
      ⟨w2, b2, fun p hp y hy => Nat.lt_of_lt_of_le (ho.env p hp y hy) (by omega),
        fun y hy => Nat.lt_of_lt_of_le (ho.ty y hy) (by omega)⟩
      (by rw [t2, t1, ht]) v2
    refine accepts_of (n := max n1 (max n2 n3) + 1) (by simp) (by simp) (fun m hm => ?_) w3 b3 (by omega) (by rw [t3, t2, t1]) θ3 v3
      (fun y hy => (e3 y (by omega)).trans (e12 y hy))
    cases m with
    | zero => omega
    | succ m => simp only [checkH, c1 m (by omega), c2 m (by omega), c3 m (by omega), bindS]
  | @seq Γ a b T u _ _ ih1 ih2 =>
    intro env t s σ θ hΓ hT ho ht hs
    let θ0 : Nat → Ty := fun y => if y = σ.next then u else θ y
    have ha : θ0 σ.next = u := if_pos rfl
    have e0 : ∀ y, y < σ.next → θ0 y = θ y := fun y hy => by
      show (if y = σ.next then u else _) = θ y
      rw [if_neg (by omega)]
    have hs0 : Solves θ0 s := fun p hp => by
      rw [e0 _ (ho.sub p hp).1, hs p hp]
      exact inst_congr fun y hy => (e0 y ((ho.sub p hp).2 y hy)).symm
    obtain ⟨n1, s1, σ1, c1, _, w1, b1, l1, t1, θ1, v1, e1⟩ := ih1 (env := env) (t := .var σ.next) (s := s)
      (σ := σ.tvars 1) (θ := θ0) (by rw [hΓ, instEnv_congr ho.env e0]) ha.symm
      (ho.fresh 1 (fun p hp => .inl hp) (fun y hy => by cases hy; omega)) ht hs0
    have l1 : σ.next + 1 ≤ σ1.next := l1
    obtain ⟨n2, s2, σ2, c2, _, w2, b2, l2, t2, θ2, v2, e2⟩ := ih2 (env := env) (t := t) (s := s) (σ := σ1) (θ := θ) hΓ hT
      ⟨ho.wf, fun p hp => ⟨Nat.lt_of_lt_of_le (ho.sub p hp).1 (by omega),
        fun y hy => Nat.lt_of_lt_of_le ((ho.sub p hp).2 y hy) (by omega)⟩,
        fun p hp y hy => Nat.lt_of_lt_of_le (ho.env p hp y hy) (by omega), fun y hy => Nat.lt_of_lt_of_le (ho.ty y hy) (by omega)⟩
      (t1.trans ht) hs
    refine accepts_of (n := max n1 n2 + 1) (s' := s2) (σ' := σ2) (by simp) (by simp) (fun m hm => ?_) w2 b2 (by omega) (t2.trans t1) θ2 v2
      (fun y hy => e2 y (by omega))
    cases m with
    | zero => omega
    | succ m => simp only [checkH, c1 m (by omega), bindS, c2 m (by omega)]
  | @lam0 Γ e a _ ih =>
    intro env t s σ θ hΓ hT ho ht hs
    let θ0 : Nat → Ty := fun y => if y = σ.next then a else θ y
    have ha : θ0 σ.next = a := if_pos rfl
    have e0 : ∀ y, y < σ.next → θ0 y = θ y := fun y hy => by
      show (if y = σ.next then a else _) = θ y
      rw [if_neg (by omega)]
    have hs0 : Solves θ0 s := fun p hp => by
      rw [e0 _ (ho.sub p hp).1, hs p hp]
      exact inst_congr fun y hy => (e0 y ((ho.sub p hp).2 y hy)).symm
    obtain ⟨n1, s1, σ1, _, c1, w1, b1, l1, t1, θ1, v1, e1⟩ := ih (env := env) (t := .var σ.next) (s := s)
      (σ := σ.tvars 1) (θ := θ0) (by rw [hΓ, instEnv_congr ho.env e0]) ha.symm
      (ho.fresh 1 (fun p hp => .inl hp) (fun y hy => by cases hy; omega)) ht hs0
    have l1 : σ.next + 1 ≤ σ1.next := l1
    have e1' : ∀ y, y < σ.next + 1 → θ1 y = θ0 y := e1
    have heq : t.inst θ1 = (Ty.thunk (.var σ.next)).inst θ1 := by
      show _ = Ty.thunk (θ1 σ.next)
      rw [e1' _ (by omega), ha, hT]
      exact inst_congr fun y hy => by
        have := ho.ty y hy
        rw [e1' y (by omega), e0 y this]
    obtain ⟨n2, s2, c2, w2, v2, b2⟩ := unify_solvable w1 v1 heq
    refine accepts_of (n := max n1 n2 + 1) (s' := s2) (σ' := σ1) (by simp) (by simp) (fun m hm => ?_) w2
      (b2 _ (fun y hy => Nat.lt_of_lt_of_le (ho.ty y hy) (by omega)) (fun y hy => by cases hy; omega) b1)
      (by omega) t1 θ1 v2 (fun y hy => (e1' y (by omega)).trans (e0 y hy))
    cases m with
    | zero => omega
    | succ m => simp only [checkH, c1 m (by omega), bindS, unifyS, c2 m (by omega), Option.map_some]
  | @app0 Γ f T _ ih =>
    intro env t s σ θ hΓ hT ho ht hs
    obtain ⟨n1, s1, σ1, c1, _, w1, b1, l1, t1, θ1, v1, e1⟩ := ih (env := env) (t := .thunk t) (s := s) (σ := σ) (θ := θ) hΓ
      (by rw [hT]; rfl) ⟨ho.wf, ho.sub, ho.env, ho.ty⟩ ht hs
    refine accepts_of (n := n1 + 1) (s' := s1) (σ' := σ1) (by simp) (by simp) (fun m hm => ?_) w1 b1 l1 t1 θ1 v1 e1
    cases m with
    | zero => omega
    | succ m => simp only [checkH, c1 m (by omega)]
  | @lam Γ x e a b _ ih =>
    intro env t s σ θ hΓ hT ho ht hs
    let θ0 : Nat → Ty := fun y => if y = σ.next then a else if y = σ.next + 1 then b else θ y
    have ha : θ0 σ.next = a := if_pos rfl
    have hb : θ0 (σ.next + 1) = b := by
      show (if σ.next + 1 = σ.next then a else _) = b
      rw [if_neg (by omega), if_pos rfl]
    have e0 : ∀ y, y < σ.next → θ0 y = θ y := fun y hy => by
      show (if y = σ.next then a else _) = θ y
      rw [if_neg (by omega), if_neg (by omega)]
    have hs0 : Solves θ0 s := fun p hp => by
      rw [e0 _ (ho.sub p hp).1, hs p hp]
      exact inst_congr fun y hy => (e0 y ((ho.sub p hp).2 y hy)).symm
    obtain ⟨n1, s1, σ1, _, c1, w1, b1, l1, t1, θ1, v1, e1⟩ := ih (env := (x, .var σ.next) :: env) (t := .var (σ.next + 1)) (s := s)
      (σ := σ.tvars 2) (θ := θ0)
      (by
        show (x, a) :: Γ = (x, θ0 σ.next) :: instEnv θ0 env
        rw [ha, hΓ, instEnv_congr ho.env e0])
      hb.symm
      (ho.fresh 2 (fun p hp => by
        rcases List.mem_cons.mp hp with rfl | hp
        · exact .inr ⟨_, rfl, by omega⟩
        · exact .inl hp) (fun y hy => by cases hy; omega)) ht hs0
    have l1 : σ.next + 2 ≤ σ1.next := l1
    have e1' : ∀ y, y < σ.next + 2 → θ1 y = θ0 y := e1
    have heq : t.inst θ1 = (Ty.arrow (.var σ.next) (.var (σ.next + 1))).inst θ1 := by
      show _ = Ty.arrow (θ1 σ.next) (θ1 (σ.next + 1))
      rw [e1' _ (by omega), e1' _ (by omega), ha, hb, hT]
      exact inst_congr fun y hy => by
        have := ho.ty y hy
        rw [e1' y (by omega), e0 y this]
    obtain ⟨n2, s2, c2, w2, v2, b2⟩ := unify_solvable w1 v1 heq
    refine accepts_of (n := max n1 n2 + 1) (s' := s2) (σ' := σ1) (by simp) (by simp) (fun m hm => ?_) w2
      (b2 _ (fun y hy => Nat.lt_of_lt_of_le (ho.ty y hy) (by omega)) (fun y hy => by rcases hy with h | h <;> cases h <;> omega) b1)
      (by omega) t1 θ1 v2 (fun y hy => (e1' y (by omega)).trans (e0 y hy))
    cases m with
    | zero => omega
    | succ m => simp only [checkH, c1 m (by omega), bindS, unifyS, c2 m (by omega), Option.map_some]
  | @letE Γ x e e' a b _ _ ih1 ih2 =>
    intro env t s σ θ hΓ hT ho ht hs
    let θ0 : Nat → Ty := fun y => if y = σ.next then a else θ y
    have ha : θ0 σ.next = a := if_pos rfl
    have e0 : ∀ y, y < σ.next → θ0 y = θ y := fun y hy => by
      show (if y = σ.next then a else _) = θ y
      rw [if_neg (by omega)]
    have hs0 : Solves θ0 s := fun p hp => by
      rw [e0 _ (ho.sub p hp).1, hs p hp]
      exact inst_congr fun y hy => (e0 y ((ho.sub p hp).2 y hy)).symm
    obtain ⟨n1, s1, σ1, _, c1, w1, b1, l1, t1, θ1, v1, e1⟩ := ih1 (env := env) (t := .var σ.next) (s := s)
      (σ := σ.tvars 1) (θ := θ0) (by rw [hΓ, instEnv_congr ho.env e0]) ha.symm
      (ho.fresh 1 (fun p hp => .inl hp) (fun y hy => by cases hy; omega)) ht hs0
    have l1 : σ.next + 1 ≤ σ1.next := l1
    have e1' : ∀ y, y < σ.next + 1 → θ1 y = θ0 y := e1
    have e01 : ∀ y, y < σ.next → θ1 y = θ y := fun y hy => (e1' y (by omega)).trans (e0 y hy)
    obtain ⟨n2, s2, σ2, _, c2, w2, b2, l2, t2, θ2, v2, e2⟩ := ih2 (env := (x, .var σ.next) :: env) (t := t) (s := s1)
      (σ := σ1) (θ := θ1)
      (by
        show (x, a) :: Γ = (x, θ1 σ.next) :: instEnv θ1 env
        rw [e1' _ (by omega), ha, hΓ, instEnv_congr ho.env e01])
      (by rw [hT]; exact inst_congr fun y hy => (e01 y (ho.ty y hy)).symm)
      ⟨w1, b1, fun p hp y hy => by
        rcases List.mem_cons.mp hp with rfl | hp
        · cases hy; show σ.next < σ1.next; omega
        · exact Nat.lt_of_lt_of_le (ho.env p hp y hy) (by omega), fun y hy => Nat.lt_of_lt_of_le (ho.ty y hy) (by omega)⟩
      (t1.trans ht) v1
    refine accepts_of (n := max n1 n2 + 1) (s' := s2) (σ' := σ2) (by simp) (by simp) (fun m hm => ?_) w2 b2 (by omega) (t2.trans t1) θ2 v2
      (fun y hy => (e2 y (by omega)).trans (e01 y hy))
    cases m with
    | zero => omega
    | succ m => simp only [checkH, c1 m (by omega), bindS, c2 m (by omega)]
  | @app Γ f e a b _ _ ih1 ih2 =>
    intro env t s σ θ hΓ hT ho ht hs
    let θ0 : Nat → Ty := fun y => if y = σ.next then a else if y = σ.next + 1 then b else θ y
    have ha : θ0 σ.next = a := if_pos rfl
    have hb : θ0 (σ.next + 1) = b := by
      show (if σ.next + 1 = σ.next then a else _) = b
      rw [if_neg (by omega), if_pos rfl]
    have e0 : ∀ y, y < σ.next → θ0 y = θ y := fun y hy => by
      show (if y = σ.next then a else _) = θ y
      rw [if_neg (by omega), if_neg (by omega)]
    have hs0 : Solves θ0 s := fun p hp => by
      rw [e0 _ (ho.sub p hp).1, hs p hp]
      exact inst_congr fun y hy => (e0 y ((ho.sub p hp).2 y hy)).symm
    obtain ⟨n1, s1, σ1, c1, _, w1, b1, l1, t1, θ1, v1, e1⟩ := ih1 (env := env) (t := .arrow (.var σ.next) (.var (σ.next + 1))) (s := s)
      (σ := σ.tvars 2) (θ := θ0) (by rw [hΓ, instEnv_congr ho.env e0])
      (by show Ty.arrow a b = Ty.arrow (θ0 _) (θ0 _); rw [ha, hb])
      (ho.fresh 2 (fun p hp => .inl hp) (fun y hy => by rcases hy with h | h <;> cases h <;> omega)) ht hs0
    have l1 : σ.next + 2 ≤ σ1.next := l1
    have e1' : ∀ y, y < σ.next + 2 → θ1 y = θ0 y := e1
    have e01 : ∀ y, y < σ.next → θ1 y = θ y := fun y hy => (e1' y (by omega)).trans (e0 y hy)
    obtain ⟨k, A, hA⟩ := w1.total (.var σ.next)
    have iA : A.inst θ1 = a := by
      rw [applySubst_inst v1 hA]
      show θ1 σ.next = a
      rw [e1' _ (by omega), ha]
    have bA : ∀ y, A.has y → y < σ1.next := fun y hy => by
      rcases applySubst_vars hA y hy with h | ⟨p, hp, h⟩
      · cases h; omega
      · exact (b1 p hp).2 y h
    obtain ⟨n2, s2, σ2, _, c2, w2, b2, l2, t2, θ2, v2, e2⟩ := ih2 (env := env) (t := A) (s := s1)
      (σ := σ1) (θ := θ1) (by rw [hΓ, instEnv_congr ho.env e01]) iA.symm
      ⟨w1, b1, fun p hp y hy => Nat.lt_of_lt_of_le (ho.env p hp y hy) (by omega), bA⟩ (t1.trans ht) v1
    have heq : t.inst θ2 = (Ty.var (σ.next + 1)).inst θ2 := by
      show _ = θ2 (σ.next + 1)
      rw [e2 _ (by omega), e1' _ (by omega), hb, hT]
      exact inst_congr fun y hy => by
        have := ho.ty y hy
        rw [e2 y (by omega), e01 y this]
    obtain ⟨n3, s3, c3, w3, v3, b3⟩ := unify_solvable w2 v2 heq
    have b3 := b3 _ (fun y hy => Nat.lt_of_lt_of_le (ho.ty y hy) (by omega)) (fun y hy => by cases hy; show σ.next + 1 < σ2.next; omega) b2
    refine accepts_of (n := max k (max n1 (max n2 n3)) + 1) (s' := forget σ.next (σ.next + 1) s3) (σ' := σ2) (by simp) (by simp)
      (fun m hm => ?_) (w3.sub List.filter_sublist) (fun p hp => b3 p (mem_forget.mp hp).1) (by omega) (t2.trans t1) θ2
      (fun p hp => v3 p (mem_forget.mp hp).1) (fun y hy => (e2 y (by omega)).trans (e01 y hy))
    cases m with
    | zero => omega
    | succ m =>
      simp only [checkH, c1 m (by omega), bindS, applySubst_mono (show k ≤ m by omega) hA, c2 m (by omega), unifyS,
        c3 m (by omega), Option.map_some]

end Cora.Infer
