import Verif.Spec.Lang
/-
Facts about the core language: inversion, dependence on the free variables only, determinism, an interpreter with fuel.
-/
namespace Spec.Lang
variable {W : Type} {E : Ext W} {env : Env} {w w' : World W} {v : Val}

/-! ### environments -/

theorem find_capture (xs : List Sym) (env : Env) (x : Sym) :
    find x (capture xs env) = if x ∈ xs then find x env else none := by
  induction xs with
  | nil => simp [capture, find]
  | cons y r ih =>
    unfold capture at ih ⊢
    cases hy : find y env with
    | none =>
      rw [List.filterMap_cons_none (by simp [hy]), ih]
      by_cases hx : x = y
      · subst hx; simp [hy]
      · simp [hx]
    | some u =>
      rw [List.filterMap_cons_some (b := (y, u)) (by simp [hy])]
      simp only [find]
      by_cases hx : y = x
      · subst hx; simp [hy]
      · rw [if_neg hx, ih]; simp [Ne.symm hx]

theorem capture_congr {xs : List Sym} {env env' : Env} (h : ∀ x ∈ xs, find x env = find x env') :
    capture xs env = capture xs env' := by
  unfold capture
  induction xs with
  | nil => rfl
  | cons y r ih =>
    rw [List.filterMap_cons, List.filterMap_cons, h y (by simp), ih fun x hx => h x (by simp [hx])]

theorem find_append (x : Sym) (a b : Env) : find x (a ++ b) = (find x a).or (find x b) := by
  induction a with
  | nil => simp [find]
  | cons p r ih =>
    obtain ⟨y, u⟩ := p
    simp only [List.cons_append, find]
    split <;> simp [ih]

theorem find_none_of_not_mem {x : Sym} {a : Env} (h : ∀ p ∈ a, p.1 ≠ x) : find x a = none := by
  induction a with
  | nil => rfl
  | cons p r ih =>
    obtain ⟨y, u⟩ := p
    simp only [find]
    rw [if_neg (h (y, u) (by simp))]
    exact ih fun q hq => h q (by simp [hq])

/-! ### inversion -/

theorem eval_lit {c : Const} : Eval E env w (.lit c) v w' ↔ v = c.datum.val ∧ w' = w := by
  constructor
  · intro h; cases h; exact ⟨rfl, rfl⟩
  · rintro ⟨rfl, rfl⟩; exact .lit ..

theorem eval_quote {d : Datum} : Eval E env w (.quote d) v w' ↔ v = d.val ∧ w' = w := by
  constructor
  · intro h; cases h; exact ⟨rfl, rfl⟩
  · rintro ⟨rfl, rfl⟩; exact .quote ..

theorem eval_local {x : Sym} {u : Val} (hx : find x env = some u) :
    Eval E env w (.var x) v w' ↔ v = u ∧ w' = w := by
  constructor
  · intro h
    cases h with
    | «local» _ _ _ _ h1 => rw [hx] at h1; cases h1; exact ⟨rfl, rfl⟩
    | global _ _ _ _ h1 => rw [hx] at h1; cases h1
  · rintro ⟨rfl, rfl⟩; exact .local _ _ _ _ hx

theorem eval_lam {ps : List Sym} {b : Core} :
    Eval E env w (.lam ps b) v w' ↔ v = .clo ps b (capture (Core.lam ps b).fv env) ∧ w' = w := by
  constructor
  · intro h; cases h; exact ⟨rfl, rfl⟩
  · rintro ⟨rfl, rfl⟩; exact .lam ..

theorem eval_ite {a b c : Core} : Eval E env w (.ite a b c) v w' ↔
    ∃ u w1, Eval E env w a u w1 ∧ ((u = .bool true ∧ Eval E env w1 b v w') ∨
      (u ≠ .bool true ∧ Eval E env w1 c v w')) := by
  constructor
  · intro h
    cases h with
    | «then» _ _ _ _ _ _ w1 _ h1 h2 => exact ⟨_, w1, h1, .inl ⟨rfl, h2⟩⟩
    | «else» _ _ _ _ _ u _ w1 _ h1 hu h2 => exact ⟨u, w1, h1, .inr ⟨hu, h2⟩⟩
  · rintro ⟨u, w1, h1, ⟨rfl, h2⟩ | ⟨hu, h2⟩⟩
    · exact .then _ _ _ _ _ _ _ _ h1 h2
    · exact .else _ _ _ _ _ _ _ _ _ h1 hu h2

theorem eval_seq {a b : Core} : Eval E env w (.seq a b) v w' ↔
    ∃ u w1, Eval E env w a u w1 ∧ Eval E env w1 b v w' := by
  constructor
  · intro h; cases h with
    | seq _ _ _ _ u _ w1 _ h1 h2 => exact ⟨u, w1, h1, h2⟩
  · rintro ⟨u, w1, h1, h2⟩; exact .seq _ _ _ _ _ _ _ _ h1 h2

theorem eval_bind {x : Sym} {e b : Core} : Eval E env w (.bind x e b) v w' ↔
    ∃ u w1, Eval E env w e u w1 ∧ Eval E ((x, u) :: env) w1 b v w' := by
  constructor
  · intro h; cases h with
    | bind _ _ _ _ _ u _ w1 _ h1 h2 => exact ⟨u, w1, h1, h2⟩
  · rintro ⟨u, w1, h1, h2⟩; exact .bind _ _ _ _ _ _ _ _ _ h1 h2

theorem evalArgs_nil {vs : List Val} : EvalArgs E env w [] vs w' ↔ vs = [] ∧ w' = w := by
  constructor
  · intro h; cases h; exact ⟨rfl, rfl⟩
  · rintro ⟨rfl, rfl⟩; exact .nil ..

theorem evalArgs_cons {e : Core} {es : List Core} {vs : List Val} : EvalArgs E env w (e :: es) vs w' ↔
    ∃ u us w1, vs = u :: us ∧ Eval E env w e u w1 ∧ EvalArgs E env w1 es us w' := by
  constructor
  · intro h; cases h with
    | cons _ _ _ _ u us w1 _ h1 h2 => exact ⟨u, us, w1, rfl, h1, h2⟩
  · rintro ⟨u, us, w1, rfl, h1, h2⟩; exact .cons _ _ _ _ _ _ _ _ h1 h2

theorem eval_app {f : Core} {args : List Core} (hf : f.primOf env = none) :
    Eval E env w (.app f args) v w' ↔ ∃ g vs w1 w2, Eval E env w f g w1 ∧ EvalArgs E env w1 args vs w2 ∧
      Apply E w2 g vs v w' := by
  constructor
  · intro h; cases h with
    | prim _ _ _ _ p vs _ w1 _ h1 h2 h3 => rw [hf] at h1; cases h1
    | app _ _ _ _ g vs _ w1 w2 _ h1 h2 h3 h4 => exact ⟨g, vs, w1, w2, h2, h3, h4⟩
  · rintro ⟨g, vs, w1, w2, h2, h3, h4⟩; exact .app _ _ _ _ _ _ _ _ _ _ hf h2 h3 h4

theorem eval_prim {f : Core} {args : List Core} {p : String} (hf : f.primOf env = some p) :
    Eval E env w (.app f args) v w' ↔ ∃ vs w1, EvalArgs E env w args vs w1 ∧ Apply E w1 (.prim p) vs v w' := by
  constructor
  · intro h; cases h with
    | prim _ _ _ _ q vs _ w1 _ h1 h2 h3 => rw [hf] at h1; cases h1; exact ⟨vs, w1, h2, h3⟩
    | app _ _ _ _ g vs _ w1 w2 _ h1 h2 h3 h4 => rw [hf] at h1; cases h1
  · rintro ⟨vs, w1, h2, h3⟩; exact .prim _ _ _ _ _ _ _ _ _ hf h2 h3

theorem evalArgs_length {args : List Core} : ∀ {w : World W} {vs}, EvalArgs E env w args vs w' → vs.length = args.length := by
  induction args with
  | nil => intro w vs h; obtain ⟨rfl, _⟩ := evalArgs_nil.1 h; rfl
  | cons e es ih =>
    intro w vs h
    obtain ⟨u, us, w1, rfl, _, h2⟩ := evalArgs_cons.1 h
    simp [ih h2]

theorem apply_clo_exact {ps : List Sym} {b : Core} {cenv : Env} {args : List Val} (hn : args.length = ps.length) :
    Apply E w (.clo ps b cenv) args v w' ↔ Eval E ((ps.zip args).reverse ++ cenv) w b v w' := by
  constructor
  · intro h; cases h with
    | clo _ _ _ _ _ _ _ _ h => exact h
    | none _ _ n h1 h2 => simp [Val.arity] at h1; simp at hn; omega
    | less _ _ n _ h1 h2 h3 => simp [Val.arity] at h1; omega
    | more _ _ n _ _ _ _ _ h1 h2 => simp [Val.arity] at h1; omega
  · intro h; exact .clo _ _ _ _ _ _ _ hn h

theorem apply_prim_exact {p : String} {args : List Val} (hn : primArity p = some args.length) :
    Apply E w (.prim p) args v w' ↔ primApply E p args w = some (v, w') := by
  constructor
  · intro h; cases h with
    | prim _ _ _ _ _ _ h => exact h
    | none _ _ n h1 h2 => simp [Val.arity, hn] at h1; omega
    | less _ _ n _ h1 h2 h3 => simp [Val.arity, hn] at h1; omega
    | more _ _ n _ _ _ _ _ h1 h2 => simp [Val.arity, hn] at h1; omega
  · intro h; exact .prim _ _ _ _ _ hn h

theorem eval_prim_exact {f : Core} {args : List Core} {p : String} (hf : f.primOf env = some p)
    (hn : primArity p = some args.length) :
    Eval E env w (.app f args) v w' ↔ ∃ vs w1, EvalArgs E env w args vs w1 ∧ primApply E p vs w1 = some (v, w') := by
  rw [eval_prim hf]
  constructor
  · rintro ⟨vs, w1, h1, h2⟩
    exact ⟨vs, w1, h1, (apply_prim_exact (by rw [hn, evalArgs_length h1])).1 h2⟩
  · rintro ⟨vs, w1, h1, h2⟩
    exact ⟨vs, w1, h1, (apply_prim_exact (by rw [hn, evalArgs_length h1])).2 h2⟩

/-! ### only the free variables matter -/

theorem primOf_congr {f : Core} {env env' : Env} (h : ∀ x ∈ f.fv, find x env = find x env') :
    f.primOf env = f.primOf env' := by
  cases f with
  | var x =>
    cases x with
    | named p => simp only [Core.primOf, h (.named p) (by simp [Core.fv])]
    | gen n => rfl
  | _ => rfl

mutual
theorem eval_env {env env' : Env} {w : World W} {e : Core} {v : Val} {w' : World W}
    (h : ∀ x ∈ e.fv, find x env = find x env') (he : Eval E env w e v w') : Eval E env' w e v w' := by
  cases he with
  | lit => exact .lit ..
  | quote => exact .quote ..
  | «local» _ _ x _ hx => exact .local _ _ _ _ (by rw [← h x (by simp [Core.fv])]; exact hx)
  | global _ _ x _ hx hg => exact .global _ _ _ _ (by rw [← h x (by simp [Core.fv])]; exact hx) hg
  | lam _ _ ps b => rw [capture_congr h]; exact .lam ..
  | «then» _ _ a b c _ _ _ h1 h2 =>
    exact .then _ _ _ _ _ _ _ _ (eval_env (fun x hx => h x (by simp [Core.fv, hx])) h1)
      (eval_env (fun x hx => h x (by simp [Core.fv, hx])) h2)
  | «else» _ _ a b c _ _ _ _ h1 hu h2 =>
    exact .else _ _ _ _ _ _ _ _ _ (eval_env (fun x hx => h x (by simp [Core.fv, hx])) h1) hu
      (eval_env (fun x hx => h x (by simp [Core.fv, hx])) h2)
  | seq _ _ a b _ _ _ _ h1 h2 =>
    exact .seq _ _ _ _ _ _ _ _ (eval_env (fun x hx => h x (by simp [Core.fv, hx])) h1)
      (eval_env (fun x hx => h x (by simp [Core.fv, hx])) h2)
  | bind _ _ x e b _ _ _ _ h1 h2 =>
    exact .bind _ _ _ _ _ _ _ _ _ (eval_env (fun x hx => h x (by simp [Core.fv, hx])) h1)
      (eval_env (fun y hy => by
        simp only [find]
        by_cases hxy : x = y
        · simp [hxy]
        · rw [if_neg hxy, if_neg hxy]; exact h y (by simp [Core.fv, hy, Ne.symm hxy])) h2)
  | prim _ _ f args p _ _ _ _ hp h1 h2 =>
    exact .prim _ _ _ _ _ _ _ _ _ (by rw [← primOf_congr fun x hx => h x (by simp [Core.fv, hx])]; exact hp)
      (evalArgs_env (fun x hx => h x (by simp [Core.fv, hx])) h1) h2
  | app _ _ f args _ _ _ _ _ _ hp h1 h2 h3 =>
    exact .app _ _ _ _ _ _ _ _ _ _ (by rw [← primOf_congr fun x hx => h x (by simp [Core.fv, hx])]; exact hp)
      (eval_env (fun x hx => h x (by simp [Core.fv, hx])) h1)
      (evalArgs_env (fun x hx => h x (by simp [Core.fv, hx])) h2) h3
theorem evalArgs_env {env env' : Env} {w : World W} {es : List Core} {vs : List Val} {w' : World W}
    (h : ∀ x ∈ Core.fvs es, find x env = find x env') (he : EvalArgs E env w es vs w') : EvalArgs E env' w es vs w' := by
  cases he with
  | nil => exact .nil ..
  | cons _ _ e es _ _ _ _ h1 h2 =>
    exact .cons _ _ _ _ _ _ _ _ (eval_env (fun x hx => h x (by simp [Core.fvs, hx])) h1)
      (evalArgs_env (fun x hx => h x (by simp [Core.fvs, hx])) h2)
end

theorem eval_congr {env env' : Env} {e : Core} (h : ∀ x ∈ e.fv, find x env = find x env') :
    Eval E env w e v w' ↔ Eval E env' w e v w' :=
  ⟨eval_env h, eval_env fun x hx => (h x hx).symm⟩

/-! ### an interpreter with fuel -/

mutual
def evalF (E : Ext W) : Nat → Env → World W → Core → Option (Val × World W)
  | 0, _, _, _ => none
  | n + 1, env, w, e =>
    match e with
    | .lit c => some (c.datum.val, w)
    | .quote d => some (d.val, w)
    | .var x =>
      match find x env with
      | some v => some (v, w)
      | none => (w.globals x).map fun v => (v, w)
    | .lam ps b => some (.clo ps b (capture (Core.lam ps b).fv env), w)
    | .ite a b c =>
      match evalF E n env w a with
      | some (.bool true, w1) => evalF E n env w1 b
      | some (_, w1) => evalF E n env w1 c
      | none => none
    | .seq a b =>
      match evalF E n env w a with
      | some (_, w1) => evalF E n env w1 b
      | none => none
    | .bind x e b =>
      match evalF E n env w e with
      | some (u, w1) => evalF E n ((x, u) :: env) w1 b
      | none => none
    | .app f args =>
      match f.primOf env with
      | some p =>
        match argsF E n env w args with
        | some (vs, w1) => applyF E n w1 (.prim p) vs
        | none => none
      | none =>
        match evalF E n env w f with
        | some (g, w1) =>
          match argsF E n env w1 args with
          | some (vs, w2) => applyF E n w2 g vs
          | none => none
        | none => none
def argsF (E : Ext W) : Nat → Env → World W → List Core → Option (List Val × World W)
  | 0, _, _, _ => none
  | _ + 1, _, w, [] => some ([], w)
  | n + 1, env, w, e :: es =>
    match evalF E n env w e with
    | some (v, w1) =>
      match argsF E n env w1 es with
      | some (vs, w2) => some (v :: vs, w2)
      | none => none
    | none => none
def applyF (E : Ext W) : Nat → World W → Val → List Val → Option (Val × World W)
  | 0, _, _, _ => none
  | n + 1, w, f, args =>
    match f.arity with
    | some k =>
      if args.length = k then
        match f with
        | .clo ps b env => evalF E n ((ps.zip args).reverse ++ env) w b
        | .prim p => primApply E p args w
        | .native id _ => E.native id args w
        | _ => none
      else if args.length < k then
        if args.length = 0 then some (f, w) else some (.pap f args, w)
      else
        match applyF E n w f (args.take k) with
        | some (g, w1) => applyF E n w1 g (args.drop k)
        | none => none
    | none =>
      match f with
      | .pap g got => if args.length = 0 then some (.pap g got, w) else applyF E n w g (got ++ args)
      | _ => none
end

mutual
theorem evalF_sound : ∀ (n : Nat) {env : Env} {w : World W} {e : Core} {v : Val} {w' : World W},
    evalF E n env w e = some (v, w') → Eval E env w e v w'
  | 0, _, _, _, _, _, h => by simp [evalF] at h
  | n + 1, env, w, e, v, w', h => by
    cases e with
    | lit c => simp [evalF] at h; exact eval_lit.2 ⟨h.1.symm, h.2.symm⟩
    | quote d => simp [evalF] at h; exact eval_quote.2 ⟨h.1.symm, h.2.symm⟩
    | var x =>
      simp only [evalF] at h
      cases hx : find x env with
      | some u => rw [hx] at h; cases h; exact .local _ _ _ _ hx
      | none =>
        rw [hx] at h
        cases hg : w.globals x with
        | none => simp [hg] at h
        | some u => simp [hg] at h; obtain ⟨rfl, rfl⟩ := h; exact .global _ _ _ _ hx hg
    | lam ps b => simp only [evalF] at h; cases h; exact .lam ..
    | ite a b c =>
      simp only [evalF] at h
      generalize ha : evalF E n env w a = o at h
      cases o with
      | none => simp at h
      | some p =>
        obtain ⟨u, w1⟩ := p
        have h1 := evalF_sound n ha
        by_cases hu : u = .bool true
        · subst hu; exact .then _ _ _ _ _ _ _ _ h1 (evalF_sound n h)
        · refine .else _ _ _ _ _ _ _ _ _ h1 hu (evalF_sound n ?_)
          cases u with
          | bool t => cases t with
            | true => exact absurd rfl hu
            | false => exact h
          | _ => exact h
    | seq a b =>
      simp only [evalF] at h
      generalize ha : evalF E n env w a = o at h
      cases o with
      | none => simp at h
      | some p => exact .seq _ _ _ _ _ _ _ _ (evalF_sound n ha) (evalF_sound n h)
    | bind x e b =>
      simp only [evalF] at h
      generalize ha : evalF E n env w e = o at h
      cases o with
      | none => simp at h
      | some p => exact .bind _ _ _ _ _ _ _ _ _ (evalF_sound n ha) (evalF_sound n h)
    | app f args =>
      simp only [evalF] at h
      generalize hp : f.primOf env = o at h
      cases o with
      | some p =>
        simp only at h
        generalize ha : argsF E n env w args = o at h
        cases o with
        | none => simp at h
        | some q => exact .prim _ _ _ _ _ _ _ _ _ hp (argsF_sound n ha) (applyF_sound n h)
      | none =>
        simp only at h
        generalize hf : evalF E n env w f = o at h
        cases o with
        | none => simp at h
        | some q =>
          simp only at h
          generalize ha : argsF E n env q.2 args = o at h
          cases o with
          | none => simp at h
          | some r => exact .app _ _ _ _ _ _ _ _ _ _ hp (evalF_sound n hf) (argsF_sound n ha) (applyF_sound n h)
theorem argsF_sound : ∀ (n : Nat) {env : Env} {w : World W} {es : List Core} {vs : List Val} {w' : World W},
    argsF E n env w es = some (vs, w') → EvalArgs E env w es vs w'
  | 0, _, _, _, _, _, h => by simp [argsF] at h
  | n + 1, env, w, es, vs, w', h => by
    cases es with
    | nil => simp [argsF] at h; exact evalArgs_nil.2 ⟨h.1, h.2.symm⟩
    | cons e es =>
      simp only [argsF] at h
      generalize hf : evalF E n env w e = o at h
      cases o with
      | none => simp at h
      | some q =>
        simp only at h
        generalize ha : argsF E n env q.2 es = o at h
        cases o with
        | none => simp at h
        | some r => cases h; exact .cons _ _ _ _ _ _ _ _ (evalF_sound n hf) (argsF_sound n ha)
theorem applyF_sound : ∀ (n : Nat) {w : World W} {f : Val} {args : List Val} {v : Val} {w' : World W},
    applyF E n w f args = some (v, w') → Apply E w f args v w'
  | 0, _, _, _, _, _, h => by simp [applyF] at h
  | n + 1, w, f, args, v, w', h => by
    simp only [applyF] at h
    generalize hk : f.arity = o at h
    cases o with
    | some k =>
      simp only at h
      by_cases h1 : args.length = k
      · rw [if_pos h1] at h
        cases f with
        | clo ps b cenv =>
          simp [Val.arity] at hk
          exact .clo _ _ _ _ _ _ _ (by omega) (evalF_sound n h)
        | prim p => exact .prim _ _ _ _ _ (by simpa [Val.arity, h1] using hk) h
        | native id m => simp [Val.arity] at hk; exact .native _ _ _ _ _ _ (by omega) h
        | _ => simp at h
      · rw [if_neg h1] at h
        by_cases h2 : args.length < k
        · rw [if_pos h2] at h
          by_cases h3 : args.length = 0
          · rw [if_pos h3] at h; cases h
            rw [List.length_eq_zero_iff.1 h3] at h2 ⊢
            exact .none _ _ k hk (by simpa using h2)
          · rw [if_neg h3] at h; cases h
            exact .less _ _ k _ hk (by omega) h2
        · rw [if_neg h2] at h
          generalize ha : applyF E n w f (args.take k) = o at h
          cases o with
          | none => simp at h
          | some q => exact .more _ _ k _ _ _ _ _ hk (by omega) (applyF_sound n ha) (applyF_sound n h)
    | none =>
      cases f with
      | pap g got =>
        simp only at h
        by_cases h3 : args.length = 0
        · rw [if_pos h3] at h; cases h
          rw [List.length_eq_zero_iff.1 h3]; exact .papNone ..
        · rw [if_neg h3] at h
          exact .pap _ _ _ _ _ _ (by intro h4; subst h4; simp at h3) (applyF_sound n h)
      | _ => simp at h
end

mutual
theorem evalF_mono : ∀ (n m : Nat) (_ : n ≤ m) {env : Env} {w : World W} {e : Core} {r : Val × World W},
    evalF E n env w e = some r → evalF E m env w e = some r
  | 0, _, _, _, _, _, _, h => by simp [evalF] at h
  | n + 1, 0, hm, _, _, _, _, _ => by omega
  | n + 1, m + 1, hm, env, w, e, r, h => by
    have hm : n ≤ m := by omega
    cases e with
    | ite a b c =>
      simp only [evalF] at h ⊢
      generalize ha : evalF E n env w a = o at h
      cases o with
      | none => simp at h
      | some p =>
        rw [evalF_mono n m hm ha]
        obtain ⟨u, w1⟩ := p
        cases u with
        | bool t => cases t with
          | true => exact evalF_mono n m hm h
          | false => exact evalF_mono n m hm h
        | _ => exact evalF_mono n m hm h
    | seq a b =>
      simp only [evalF] at h ⊢
      generalize ha : evalF E n env w a = o at h
      cases o with
      | none => simp at h
      | some p => rw [evalF_mono n m hm ha]; exact evalF_mono n m hm h
    | bind x e b =>
      simp only [evalF] at h ⊢
      generalize ha : evalF E n env w e = o at h
      cases o with
      | none => simp at h
      | some p => rw [evalF_mono n m hm ha]; exact evalF_mono n m hm h
    | app f args =>
      simp only [evalF] at h ⊢
      generalize hp : f.primOf env = o at h
      cases o with
      | some p =>
        simp only at h ⊢
        generalize ha : argsF E n env w args = o at h
        cases o with
        | none => simp at h
        | some q => rw [argsF_mono n m hm ha]; exact applyF_mono n m hm h
      | none =>
        simp only at h ⊢
        generalize hf : evalF E n env w f = o at h
        cases o with
        | none => simp at h
        | some q =>
          simp only at h
          generalize ha : argsF E n env q.2 args = o at h
          cases o with
          | none => simp at h
          | some r =>
            rw [evalF_mono n m hm hf]
            simp only
            rw [argsF_mono n m hm ha]
            exact applyF_mono n m hm h
    | _ => simpa only [evalF] using h
theorem argsF_mono : ∀ (n m : Nat) (_ : n ≤ m) {env : Env} {w : World W} {es : List Core} {r : List Val × World W},
    argsF E n env w es = some r → argsF E m env w es = some r
  | 0, _, _, _, _, _, _, h => by simp [argsF] at h
  | n + 1, 0, hm, _, _, _, _, _ => by omega
  | n + 1, m + 1, hm, env, w, es, r, h => by
    have hm : n ≤ m := by omega
    cases es with
    | nil => simpa [argsF] using h
    | cons e es =>
      simp only [argsF] at h ⊢
      generalize hf : evalF E n env w e = o at h
      cases o with
      | none => simp at h
      | some q =>
        simp only at h
        generalize ha : argsF E n env q.2 es = o at h
        cases o with
        | none => simp at h
        | some r =>
          rw [evalF_mono n m hm hf]
          simp only
          rw [argsF_mono n m hm ha]
          exact h
theorem applyF_mono : ∀ (n m : Nat) (_ : n ≤ m) {w : World W} {f : Val} {args : List Val} {r : Val × World W},
    applyF E n w f args = some r → applyF E m w f args = some r
  | 0, _, _, _, _, _, _, h => by simp [applyF] at h
  | n + 1, 0, hm, _, _, _, _, _ => by omega
  | n + 1, m + 1, hm, w, f, args, r, h => by
    have hm : n ≤ m := by omega
    simp only [applyF] at h ⊢
    generalize hk : f.arity = o at h
    cases o with
    | some k =>
      simp only at h ⊢
      by_cases h1 : args.length = k
      · rw [if_pos h1] at h ⊢
        cases f with
        | clo ps b cenv => exact evalF_mono n m hm h
        | _ => exact h
      · rw [if_neg h1] at h ⊢
        by_cases h2 : args.length < k
        · rw [if_pos h2] at h ⊢; exact h
        · rw [if_neg h2] at h ⊢
          generalize ha : applyF E n w f (args.take k) = o at h
          cases o with
          | none => simp at h
          | some q => rw [applyF_mono n m hm ha]; exact applyF_mono n m hm h
    | none =>
      cases f with
      | pap g got =>
        simp only at h ⊢
        by_cases h3 : args.length = 0
        · rw [if_pos h3] at h ⊢; exact h
        · rw [if_neg h3] at h ⊢; exact applyF_mono n m hm h
      | _ => simp at h
end

/-- induction over evaluations -/
theorem eval_induct {P1 : Env → World W → Core → Val → World W → Prop}
    {P2 : Env → World W → List Core → List Val → World W → Prop}
    {P3 : World W → Val → List Val → Val → World W → Prop}
    (lit : ∀ env w c, P1 env w (.lit c) c.datum.val w)
    (quote : ∀ env w d, P1 env w (.quote d) d.val w)
    (loc : ∀ env w x v, find x env = some v → P1 env w (.var x) v w)
    (global : ∀ env w x v, find x env = none → w.globals x = some v → P1 env w (.var x) v w)
    (lam : ∀ env w ps b, P1 env w (.lam ps b) (.clo ps b (capture (Core.lam ps b).fv env)) w)
    (thn : ∀ env w a b c v w1 w2, Eval E env w a (.bool true) w1 → Eval E env w1 b v w2 →
      P1 env w a (.bool true) w1 → P1 env w1 b v w2 → P1 env w (.ite a b c) v w2)
    (els : ∀ env w a b c u v w1 w2, Eval E env w a u w1 → u ≠ .bool true → Eval E env w1 c v w2 →
      P1 env w a u w1 → P1 env w1 c v w2 → P1 env w (.ite a b c) v w2)
    (seq : ∀ env w a b u v w1 w2, Eval E env w a u w1 → Eval E env w1 b v w2 →
      P1 env w a u w1 → P1 env w1 b v w2 → P1 env w (.seq a b) v w2)
    (bind : ∀ env w x e b u v w1 w2, Eval E env w e u w1 → Eval E ((x, u) :: env) w1 b v w2 →
      P1 env w e u w1 → P1 ((x, u) :: env) w1 b v w2 → P1 env w (.bind x e b) v w2)
    (prim : ∀ env w f args p vs v w1 w2, f.primOf env = some p → EvalArgs E env w args vs w1 →
      Apply E w1 (.prim p) vs v w2 → P2 env w args vs w1 → P3 w1 (.prim p) vs v w2 → P1 env w (.app f args) v w2)
    (app : ∀ env w f args g vs v w1 w2 w3, f.primOf env = none → Eval E env w f g w1 →
      EvalArgs E env w1 args vs w2 → Apply E w2 g vs v w3 → P1 env w f g w1 → P2 env w1 args vs w2 →
      P3 w2 g vs v w3 → P1 env w (.app f args) v w3)
    (nil : ∀ env w, P2 env w [] [] w)
    (cons : ∀ env w e es v vs w1 w2, Eval E env w e v w1 → EvalArgs E env w1 es vs w2 →
      P1 env w e v w1 → P2 env w1 es vs w2 → P2 env w (e :: es) (v :: vs) w2)
    (clo : ∀ w ps b env args v w1, args.length = ps.length → Eval E ((ps.zip args).reverse ++ env) w b v w1 →
      P1 ((ps.zip args).reverse ++ env) w b v w1 → P3 w (.clo ps b env) args v w1)
    (aprim : ∀ w p args v w1, primArity p = some args.length → primApply E p args w = some (v, w1) →
      P3 w (.prim p) args v w1)
    (native : ∀ w id n args v w1, args.length = n → E.native id args w = some (v, w1) →
      P3 w (.native id n) args v w1)
    (none : ∀ w f n, f.arity = some n → 0 < n → P3 w f [] f w)
    (less : ∀ w f n args, f.arity = some n → 0 < args.length → args.length < n → P3 w f args (.pap f args) w)
    (more : ∀ w f n args g v w1 w2, f.arity = some n → n < args.length → Apply E w f (args.take n) g w1 →
      Apply E w1 g (args.drop n) v w2 → P3 w f (args.take n) g w1 → P3 w1 g (args.drop n) v w2 → P3 w f args v w2)
    (pap : ∀ w f got args v w1, args ≠ [] → Apply E w f (got ++ args) v w1 → P3 w f (got ++ args) v w1 →
      P3 w (.pap f got) args v w1)
    (papNone : ∀ w f got, P3 w (.pap f got) [] (.pap f got) w) :
    (∀ env w e v w', Eval E env w e v w' → P1 env w e v w') ∧
    (∀ env w es vs w', EvalArgs E env w es vs w' → P2 env w es vs w') ∧
    (∀ w f args v w', Apply E w f args v w' → P3 w f args v w') :=
  ⟨fun _ _ _ _ _ h => Eval.rec (motive_1 := fun env w e v w' _ => P1 env w e v w')
      (motive_2 := fun env w e v w' _ => P2 env w e v w') (motive_3 := fun w e vs v w' _ => P3 w e vs v w')
      lit quote loc global lam thn els seq bind prim app nil cons clo aprim native none less more pap papNone h,
    fun _ _ _ _ _ h => EvalArgs.rec (motive_1 := fun env w e v w' _ => P1 env w e v w')
      (motive_2 := fun env w e v w' _ => P2 env w e v w') (motive_3 := fun w e vs v w' _ => P3 w e vs v w')
      lit quote loc global lam thn els seq bind prim app nil cons clo aprim native none less more pap papNone h,
    fun _ _ _ _ _ h => Apply.rec (motive_1 := fun env w e v w' _ => P1 env w e v w')
      (motive_2 := fun env w e v w' _ => P2 env w e v w') (motive_3 := fun w e vs v w' _ => P3 w e vs v w')
      lit quote loc global lam thn els seq bind prim app nil cons clo aprim native none less more pap papNone h⟩

theorem complete : (∀ env w e v w', Eval E env w e v w' → ∃ n, evalF E n env w e = some (v, w')) ∧
    (∀ env w es vs w', EvalArgs E env w es vs w' → ∃ n, argsF E n env w es = some (vs, w')) ∧
    (∀ w f args v w', Apply E w f args v w' → ∃ n, applyF E n w f args = some (v, w')) := by
  apply eval_induct
  case lit => exact fun env w c => ⟨1, rfl⟩
  case quote => exact fun env w c => ⟨1, rfl⟩
  case loc => exact fun env w x v hx => ⟨1, by simp [evalF, hx]⟩
  case global => exact fun env w x v hx hg => ⟨1, by simp [evalF, hx, hg]⟩
  case lam => exact fun env w ps b => ⟨1, rfl⟩
  case thn =>
    rintro env w a b c v w1 w2 - - ⟨n1, e1⟩ ⟨n2, e2⟩
    exact ⟨n1 + n2 + 1, by
      simp only [evalF, evalF_mono n1 (n1 + n2) (by omega) e1, evalF_mono n2 (n1 + n2) (by omega) e2]⟩
  case els =>
    rintro env w a b c u v w1 w2 - hu - ⟨n1, e1⟩ ⟨n2, e2⟩
    refine ⟨n1 + n2 + 1, ?_⟩
    have e1 := evalF_mono n1 (n1 + n2) (by omega) e1
    have e2 := evalF_mono n2 (n1 + n2) (by omega) e2
    simp only [evalF, e1]
    cases u with
    | bool t => cases t with
      | true => exact absurd rfl hu
      | false => exact e2
    | _ => exact e2
  case seq =>
    rintro env w a b u v w1 w2 - - ⟨n1, e1⟩ ⟨n2, e2⟩
    exact ⟨n1 + n2 + 1, by
      simp only [evalF, evalF_mono n1 (n1 + n2) (by omega) e1, evalF_mono n2 (n1 + n2) (by omega) e2]⟩
  case bind =>
    rintro env w x e b u v w1 w2 - - ⟨n1, e1⟩ ⟨n2, e2⟩
    exact ⟨n1 + n2 + 1, by
      simp only [evalF, evalF_mono n1 (n1 + n2) (by omega) e1, evalF_mono n2 (n1 + n2) (by omega) e2]⟩
  case prim =>
    rintro env w f args p vs v w1 w2 hp - - ⟨n1, e1⟩ ⟨n2, e2⟩
    exact ⟨n1 + n2 + 1, by
      simp only [evalF, hp, argsF_mono n1 (n1 + n2) (by omega) e1, applyF_mono n2 (n1 + n2) (by omega) e2]⟩
  case app =>
    rintro env w f args g vs v w1 w2 w3 hp - - - ⟨n1, e1⟩ ⟨n2, e2⟩ ⟨n3, e3⟩
    exact ⟨n1 + n2 + n3 + 1, by
      simp only [evalF, hp, evalF_mono n1 (n1 + n2 + n3) (by omega) e1,
        argsF_mono n2 (n1 + n2 + n3) (by omega) e2, applyF_mono n3 (n1 + n2 + n3) (by omega) e3]⟩
  case nil => exact fun env w => ⟨1, rfl⟩
  case cons =>
    rintro env w e es v vs w1 w2 - - ⟨n1, e1⟩ ⟨n2, e2⟩
    exact ⟨n1 + n2 + 1, by
      simp only [argsF, evalF_mono n1 (n1 + n2) (by omega) e1, argsF_mono n2 (n1 + n2) (by omega) e2]⟩
  case clo =>
    rintro w ps b env args v w1 hn - ⟨n1, e1⟩
    exact ⟨n1 + 1, by simp only [applyF, Val.arity, if_pos hn, e1]⟩
  case aprim => exact fun w p args v w1 hn h1 => ⟨1, by simp only [applyF, Val.arity, hn, if_true, h1]⟩
  case native => exact fun w id n args v w1 hn h1 => ⟨1, by simp only [applyF, Val.arity, if_pos hn, h1]⟩
  case none =>
    intro w f n hn h0
    refine ⟨1, ?_⟩
    simp only [applyF, hn]
    rw [if_neg (by simp; omega), if_pos (by simpa using h0)]
    simp
  case less =>
    intro w f n args hn h0 hl
    refine ⟨1, ?_⟩
    simp only [applyF, hn]
    rw [if_neg (by omega), if_pos hl, if_neg (by omega)]
  case more =>
    rintro w f n args g v w1 w2 hn h0 - - ⟨n1, e1⟩ ⟨n2, e2⟩
    refine ⟨n1 + n2 + 1, ?_⟩
    simp only [applyF, hn]
    rw [if_neg (by omega), if_neg (by omega), applyF_mono n1 (n1 + n2) (by omega) e1]
    exact applyF_mono n2 (n1 + n2) (by omega) e2
  case pap =>
    rintro w f got args v w1 hne - ⟨n1, e1⟩
    refine ⟨n1 + 1, ?_⟩
    simp only [applyF, Val.arity]
    rw [if_neg (by intro h; exact hne (List.length_eq_zero_iff.1 h))]
    exact e1
  case papNone => exact fun w f got => ⟨1, by simp [applyF, Val.arity]⟩

theorem evalF_complete {env : Env} {w : World W} {e : Core} {v : Val} {w' : World W}
    (h : Eval E env w e v w') : ∃ n, evalF E n env w e = some (v, w') := complete.1 _ _ _ _ _ h
theorem applyF_complete {w : World W} {f : Val} {args : List Val} {v : Val} {w' : World W}
    (h : Apply E w f args v w') : ∃ n, applyF E n w f args = some (v, w') := complete.2.2 _ _ _ _ _ h

/-! ### evaluation is deterministic -/

theorem eval_det {env : Env} {w : World W} {e : Core} {v v' : Val} {w1 w2 : World W}
    (h : Eval E env w e v w1) (h' : Eval E env w e v' w2) : v = v' ∧ w1 = w2 := by
  obtain ⟨n1, e1⟩ := evalF_complete h
  obtain ⟨n2, e2⟩ := evalF_complete h'
  have e1 := evalF_mono n1 (n1 + n2) (by omega) e1
  rw [evalF_mono n2 (n1 + n2) (by omega) e2] at e1
  cases e1; exact ⟨rfl, rfl⟩

theorem apply_det {w : World W} {f : Val} {args : List Val} {v v' : Val} {w1 w2 : World W}
    (h : Apply E w f args v w1) (h' : Apply E w f args v' w2) : v = v' ∧ w1 = w2 := by
  obtain ⟨n1, e1⟩ := applyF_complete h
  obtain ⟨n2, e2⟩ := applyF_complete h'
  have e1 := applyF_mono n1 (n1 + n2) (by omega) e1
  rw [applyF_mono n2 (n1 + n2) (by omega) e2] at e1
  cases e1; exact ⟨rfl, rfl⟩

end Spec.Lang
