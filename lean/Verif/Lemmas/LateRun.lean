import Verif.Spec.Late
import Verif.Lemmas.Lang
/-
An interpreter with fuel for `XEval` (Spec/Late.lean), and when two values are the same.
-/
namespace Spec.Lang
variable {W : Type}

mutual
/-- a test for equality -/
def Core.same : Core → Core → Bool
  | .lit c, .lit d => decide (c = d)
  | .quote c, .quote d => decide (c = d)
  | .var x, .var y => decide (x = y)
  | .lam ps b, .lam qs d => decide (ps = qs) && b.same d
  | .ite a b c, .ite a' b' c' => a.same a' && b.same b' && c.same c'
  | .seq a b, .seq a' b' => a.same a' && b.same b'
  | .bind x a b, .bind y a' b' => decide (x = y) && a.same a' && b.same b'
  | .app f as, .app g bs => f.same g && Core.sames as bs
  | _, _ => false
def Core.sames : List Core → List Core → Bool
  | [], [] => true
  | c :: r, d :: s => c.same d && Core.sames r s
  | _, _ => false
end

mutual
theorem Core.same_eq : ∀ {a b : Core}, a.same b = true → a = b
  | .lit c, b, h => by cases b <;> simp_all [Core.same]
  | .quote c, b, h => by cases b <;> simp_all [Core.same]
  | .var c, b, h => by cases b <;> simp_all [Core.same]
  | .lam ps a, b, h => by
    cases b <;> simp [Core.same] at h
    rw [h.1, Core.same_eq h.2]
  | .ite a1 a2 a3, b, h => by
    cases b <;> simp [Core.same] at h
    rw [Core.same_eq h.1.1, Core.same_eq h.1.2, Core.same_eq h.2]
  | .seq a1 a2, b, h => by
    cases b <;> simp [Core.same] at h
    rw [Core.same_eq h.1, Core.same_eq h.2]
  | .bind x a1 a2, b, h => by
    cases b <;> simp [Core.same] at h
    rw [h.1.1, Core.same_eq h.1.2, Core.same_eq h.2]
  | .app f as, b, h => by
    cases b <;> simp [Core.same] at h
    rw [Core.same_eq h.1, Core.sames_eq h.2]
theorem Core.sames_eq : ∀ {a b : List Core}, Core.sames a b = true → a = b
  | [], b, h => by cases b <;> simp_all [Core.sames]
  | c :: r, b, h => by
    cases b <;> simp [Core.sames] at h
    rw [Core.same_eq h.1, Core.sames_eq h.2]
end

mutual
/-- a test for equality -/
def Val.same : Val → Val → Bool
  | .int m, .int n => decide (m = n)
  | .bool m, .bool n => decide (m = n)
  | .nil, .nil => true
  | .str m, .str n => decide (m = n)
  | .sym m, .sym n => decide (m = n)
  | .cons a b, .cons c d => a.same c && b.same d
  | .clo ps b env, .clo qs d env' => decide (ps = qs) && b.same d && Val.sameEnv env env'
  | .prim p, .prim q => decide (p = q)
  | .pap f as, .pap g bs => f.same g && Val.sames as bs
  | .native i m, .native j n => decide (i = j) && decide (m = n)
  | _, _ => false
def Val.sames : List Val → List Val → Bool
  | [], [] => true
  | c :: r, d :: s => c.same d && Val.sames r s
  | _, _ => false
def Val.sameEnv : List (Sym × Val) → List (Sym × Val) → Bool
  | [], [] => true
  | (x, c) :: r, (y, d) :: s => decide (x = y) && c.same d && Val.sameEnv r s
  | _, _ => false
end

mutual
theorem Val.same_eq : ∀ {a b : Val}, a.same b = true → a = b
  | .int _, b, h => by cases b <;> simp_all [Val.same]
  | .bool _, b, h => by cases b <;> simp_all [Val.same]
  | .nil, b, h => by cases b <;> simp_all [Val.same]
  | .str _, b, h => by cases b <;> simp_all [Val.same]
  | .sym _, b, h => by cases b <;> simp_all [Val.same]
  | .cons a1 a2, b, h => by
    cases b <;> simp [Val.same] at h
    rw [Val.same_eq h.1, Val.same_eq h.2]
  | .clo ps c env, b, h => by
    cases b <;> simp [Val.same] at h
    rw [h.1.1, Core.same_eq h.1.2, Val.sameEnv_eq h.2]
  | .prim _, b, h => by cases b <;> simp_all [Val.same]
  | .pap f as, b, h => by
    cases b <;> simp [Val.same] at h
    rw [Val.same_eq h.1, Val.sames_eq h.2]
  | .native _ _, b, h => by cases b <;> simp_all [Val.same]
theorem Val.sames_eq : ∀ {a b : List Val}, Val.sames a b = true → a = b
  | [], b, h => by cases b <;> simp_all [Val.sames]
  | c :: r, b, h => by
    cases b <;> simp [Val.sames] at h
    rw [Val.same_eq h.1, Val.sames_eq h.2]
theorem Val.sameEnv_eq : ∀ {a b : List (Sym × Val)}, Val.sameEnv a b = true → a = b
  | [], b, h => by cases b <;> simp_all [Val.sameEnv]
  | (x, c) :: r, b, h => by
    cases b with
    | nil => simp [Val.sameEnv] at h
    | cons y s =>
      obtain ⟨y, d⟩ := y
      simp [Val.sameEnv] at h
      rw [h.1.1, Val.same_eq h.1.2, Val.sameEnv_eq h.2]
end

/-- are these the values of the operands in this world -/
def standing (w : World W) (os : List Operand) (vs : List Val) : Bool :=
  match settle w os with
  | some us => Val.sames us vs
  | none => false

theorem standing_spec {w : World W} {os : List Operand} {vs : List Val} (h : standing w os vs = true) : settle w os = some vs := by
  unfold standing at h
  split at h
  · rename_i us hu
    rw [hu, Val.sames_eq h]
  · cases h

mutual
/-- evaluation as in `XEval true` -/
def xevalF (E : Ext W) : Nat → Env → World W → Core → Option (Val × Operand × World W)
  | 0, _, _, _ => none
  | n + 1, env, w, e =>
    match e with
    | .lit c => some (c.datum.val, .now c.datum.val, w)
    | .quote d => some (d.val, .now d.val, w)
    | .var x =>
      match find x env with
      | some v => some (v, .now v, w)
      | none => (w.globals x).map fun v => (v, .later x, w)
    | .lam ps b => some (.clo ps b (capture (Core.lam ps b).fv env), .now (.clo ps b (capture (Core.lam ps b).fv env)), w)
    | .ite a b c =>
      match xevalF E n env w a with
      | some (.bool true, _, w1) => xevalF E n env w1 b
      | some (_, _, w1) => xevalF E n env w1 c
      | none => none
    | .seq a b =>
      match xevalF E n env w a with
      | some (_, _, w1) => xevalF E n env w1 b
      | none => none
    | .bind x e b =>
      match xevalF E n env w e with
      | some (u, _, w1) => xevalF E n ((x, u) :: env) w1 b
      | none => none
    | .app f args =>
      match f.primOf env with
      | some p =>
        match xargsF E n env w args with
        | some (vs, os, w1) =>
          if standing w1 os vs then (xapplyF E n w1 (.prim p) vs).map fun r => (r.1, .now r.1, r.2) else none
        | none => none
      | none =>
        match xevalF E n env w f with
        | some (g, o, w1) =>
          match xargsF E n env w1 args with
          | some (vs, os, w2) =>
            if standing w2 (o :: os) (g :: vs) then (xapplyF E n w2 g vs).map fun r => (r.1, .now r.1, r.2) else none
          | none => none
        | none => none
def xargsF (E : Ext W) : Nat → Env → World W → List Core → Option (List Val × List Operand × World W)
  | 0, _, _, _ => none
  | _ + 1, _, w, [] => some ([], [], w)
  | n + 1, env, w, e :: es =>
    match xevalF E n env w e with
    | some (v, o, w1) =>
      match xargsF E n env w1 es with
      | some (vs, os, w2) => some (v :: vs, o :: os, w2)
      | none => none
    | none => none
def xapplyF (E : Ext W) : Nat → World W → Val → List Val → Option (Val × World W)
  | 0, _, _, _ => none
  | n + 1, w, f, args =>
    match f.arity with
    | some k =>
      if args.length = k then
        match f with
        | .clo ps b env => (xevalF E n ((ps.zip args).reverse ++ env) w b).map fun r => (r.1, r.2.2)
        | .prim p => primApply E p args w
        | .native id _ => E.native id args w
        | _ => none
      else if args.length < k then
        if args.length = 0 then some (f, w) else some (.pap f args, w)
      else
        match xapplyF E n w f (args.take k) with
        | some (g, w1) => xapplyF E n w1 g (args.drop k)
        | none => none
    | none =>
      match f with
      | .pap g got => if args.length = 0 then some (.pap g got, w) else xapplyF E n w g (got ++ args)
      | _ => none
end

mutual
theorem xevalF_sound {E : Ext W} : ∀ (n : Nat) {env : Env} {w : World W} {e : Core} {v : Val} {o : Operand} {w' : World W},
    xevalF E n env w e = some (v, o, w') → XEval true E env w e v o w'
  | 0, _, _, _, _, _, _, h => by simp [xevalF] at h
  | n + 1, env, w, e, v, o, w', h => by
    cases e with
    | lit c => simp only [xevalF] at h; cases h; exact .lit ..
    | quote d => simp only [xevalF] at h; cases h; exact .quote ..
    | var x =>
      simp only [xevalF] at h
      cases hx : find x env with
      | some u => rw [hx] at h; cases h; exact .local _ _ _ _ hx
      | none =>
        rw [hx] at h
        cases hg : w.globals x with
        | none => simp [hg] at h
        | some u => simp [hg] at h; obtain ⟨rfl, rfl, rfl⟩ := h; exact .global _ _ _ _ hx hg
    | lam ps b => simp only [xevalF] at h; cases h; exact .lam ..
    | ite a b c =>
      simp only [xevalF] at h
      generalize ha : xevalF E n env w a = r at h
      cases r with
      | none => simp at h
      | some p =>
        obtain ⟨u, o1, w1⟩ := p
        have h1 := xevalF_sound n ha
        by_cases hu : u = .bool true
        · subst hu; exact .then _ _ _ _ _ _ _ _ _ _ h1 (xevalF_sound n h)
        · refine .else _ _ _ _ _ _ _ _ _ _ _ h1 hu (xevalF_sound n ?_)
          cases u with
          | bool t => cases t with
            | true => exact absurd rfl hu
            | false => exact h
          | _ => exact h
    | seq a b =>
      simp only [xevalF] at h
      generalize ha : xevalF E n env w a = r at h
      cases r with
      | none => simp at h
      | some p => exact .seq _ _ _ _ _ _ _ _ _ _ (xevalF_sound n ha) (xevalF_sound n h)
    | bind x e b =>
      simp only [xevalF] at h
      generalize ha : xevalF E n env w e = r at h
      cases r with
      | none => simp at h
      | some p => exact .bind _ _ _ _ _ _ _ _ _ _ _ (xevalF_sound n ha) (xevalF_sound n h)
    | app f args =>
      simp only [xevalF] at h
      generalize hp : f.primOf env = q at h
      cases q with
      | some p =>
        simp only at h
        generalize ha : xargsF E n env w args = q at h
        cases q with
        | none => simp at h
        | some q =>
          obtain ⟨vs, os, w1⟩ := q
          simp only at h
          split at h
          · rename_i hs
            obtain ⟨r, hr, h2⟩ := Option.map_eq_some_iff.mp h
            cases h2
            exact .prim _ _ _ _ _ _ _ _ _ _ hp (xargsF_sound n ha) (standing_spec hs) (xapplyF_sound n hr)
          · cases h
      | none =>
        simp only at h
        generalize hf : xevalF E n env w f = q at h
        cases q with
        | none => simp at h
        | some q =>
          obtain ⟨g, o1, w1⟩ := q
          simp only at h
          generalize ha : xargsF E n env w1 args = q at h
          cases q with
          | none => simp at h
          | some q =>
            obtain ⟨vs, os, w2⟩ := q
            simp only at h
            split at h
            · rename_i hs
              obtain ⟨r, hr, h2⟩ := Option.map_eq_some_iff.mp h
              cases h2
              exact .app _ _ _ _ _ _ _ _ _ _ _ _ hp (xevalF_sound n hf) (xargsF_sound n ha) (standing_spec hs) (xapplyF_sound n hr)
            · cases h
theorem xargsF_sound {E : Ext W} : ∀ (n : Nat) {env : Env} {w : World W} {es : List Core} {vs : List Val} {os : List Operand}
    {w' : World W}, xargsF E n env w es = some (vs, os, w') → XArgs true E env w es vs os w'
  | 0, _, _, _, _, _, _, h => by simp [xargsF] at h
  | n + 1, env, w, es, vs, os, w', h => by
    cases es with
    | nil => simp only [xargsF] at h; cases h; exact .nil ..
    | cons e es =>
      simp only [xargsF] at h
      generalize hf : xevalF E n env w e = q at h
      cases q with
      | none => simp at h
      | some q =>
        obtain ⟨v, o, w1⟩ := q
        simp only at h
        generalize ha : xargsF E n env w1 es = q at h
        cases q with
        | none => simp at h
        | some r => cases h; exact .cons _ _ _ _ _ _ _ _ _ _ (xevalF_sound n hf) (xargsF_sound n ha)
theorem xapplyF_sound {E : Ext W} : ∀ (n : Nat) {w : World W} {f : Val} {args : List Val} {v : Val} {w' : World W},
    xapplyF E n w f args = some (v, w') → XApply true E w f args v w'
  | 0, _, _, _, _, _, h => by simp [xapplyF] at h
  | n + 1, w, f, args, v, w', h => by
    simp only [xapplyF] at h
    generalize hk : f.arity = q at h
    cases q with
    | some k =>
      simp only at h
      by_cases h1 : args.length = k
      · rw [if_pos h1] at h
        cases f with
        | clo ps b cenv =>
          simp [Val.arity] at hk
          obtain ⟨r, hr, h2⟩ := Option.map_eq_some_iff.mp h
          obtain ⟨v1, o1, w1⟩ := r
          cases h2
          exact .clo _ _ _ _ _ _ _ _ (by omega) (xevalF_sound n hr)
        | prim p => exact .prim _ _ _ _ _ (by simpa [Val.arity, h1] using hk) h
        | native id m => simp [Val.arity] at hk; exact .native _ _ _ _ _ _ (by omega) h
        | _ => simp at h
      · rw [if_neg h1] at h
        by_cases h2 : args.length < k
        · rw [if_pos h2] at h
          by_cases h3 : args.length = 0
          · rw [if_pos h3] at h; cases h
            rw [List.length_eq_zero_iff.1 h3] at h2 ⊢
            exact .none _ _ k hk (by simpa using h2)
          · rw [if_neg h3] at h; cases h
            exact .less _ _ k _ hk (by omega) h2
        · rw [if_neg h2] at h
          generalize ha : xapplyF E n w f (args.take k) = q at h
          cases q with
          | none => simp at h
          | some q => exact .more _ _ k _ _ _ _ _ rfl hk (by omega) (xapplyF_sound n ha) (xapplyF_sound n h)
    | none =>
      cases f with
      | pap g got =>
        simp only at h
        by_cases h3 : args.length = 0
        · rw [if_pos h3] at h; cases h
          rw [List.length_eq_zero_iff.1 h3]; exact .papNone ..
        · rw [if_neg h3] at h
          exact .pap _ _ _ _ _ _ (fun hh => h3 (by simp [hh])) (xapplyF_sound n h)
      | _ => simp at h
end

end Spec.Lang
