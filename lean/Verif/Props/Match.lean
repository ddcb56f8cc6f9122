import Verif.Lemmas.Match
import Verif.Lemmas.NsParse
/-
C43: `match` chooses the first clause that fits.
-/
open Spec.Lang
namespace Cora.Macro
variable {mt : Macros} {K : Nat} {W : Type} {E : Ext W} {env : Env}

/-! ### patterns -/

theorem nsParse_pat {ex : Exports} : ∀ (p : Pat) (env : List Sym), nsParse ex env "" [] p.form = some p.form
  | .lit c, env => by cases c <;> simp [Pat.form, Const.datum, nsParse]
  | .quote d, env => by simp [Pat.form, Datum.list, nsParse]
  | .var x, env => by simp [Pat.form, nsParse, lookupVar_top]
  | .cons a d, env => by
    simp only [Pat.form, Datum.list]
    rw [nsParse_app (by simp [kw])]
    simp [nsParse, nsParses, nsParse_pat a env, nsParse_pat d env, isBuiltin, primArity]

/-- what a macro of init.cora that uses neither the counter nor the expander gives is expanded next -/
theorem runs_std_inv {s : String} (hs : Std mt) (h1 : s ≠ "lambda") (h2 : s ≠ "quote") {g : Datum → Option Datum}
    (hg : stdMacro s = some fun _ e => liftM (g e)) {t e1 d : Datum} {k k' : Nat}
    (he : g (.cons (kw s) t) = some e1) (hne : e1 ≠ .cons (kw s) t) (hr : Runs mt (.cons (kw s) t) k d k') :
    Runs mt e1 k d k' := by
  obtain ⟨N, hN⟩ := hr
  refine ⟨N, fun n hn => ?_⟩
  have := hN (n + 1) (by omega)
  have hp := hs.plain h1 h2
  rw [expandBoot, if_neg hp.protect, if_neg hp.lambda, if_neg hp.quote] at this
  simpa [bind, StateT.bind, hs.std s _ hg, he, liftM, monadLift, MonadLift.monadLift, StateT.lift, hne] using this

theorem runs_std {s : String} (hs : Std mt) (h1 : s ≠ "lambda") (h2 : s ≠ "quote") {g : Datum → Option Datum}
    (hg : stdMacro s = some fun _ e => liftM (g e)) {t e1 d : Datum} {k k' : Nat}
    (he : g (.cons (kw s) t) = some e1) (hne : e1 ≠ .cons (kw s) t) (hr : Runs mt e1 k d k') :
    Runs mt (.cons (kw s) t) k d k' :=
  runs_macro (hs.plain h1 h2) (hs.std s _ hg)
    ⟨0, fun n _ => by simp [he, liftM, monadLift, MonadLift.monadLift, StateT.lift]⟩ hne hr

theorem rcons_cons (a d : Datum) : rcons (.cons a d) = .list [kw "cons", a, rcons d] := rfl

theorem rcons_ne (t : Datum) (x : String) (hx : x ≠ "cons") : rcons t ≠ .cons (kw x) t := by
  cases t <;> simp [rcons, Datum.list, kw, Ne.symm hx]

theorem runs_cons (hs : Std mt) {a d p q : Datum} {k : Nat} (ha : Runs mt a k p k) (hd : Runs mt d k q k) :
    Runs mt (.list [kw "cons", a, d]) k (.list [kw "cons", p, q]) k :=
  runs_list (hs.plain (by decide) (by decide)) (by intro x hx; cases hx; exact hs.core _ (by simp))
    (.cons runs_sym (.cons ha (.cons hd .nil)))

theorem rcons1_ne {t r : Datum} (h : rcons1 t = some r) : r ≠ .cons (kw "list-rest") t := by
  intro e
  cases t with
  | cons a d =>
    by_cases hd : d = .nil
    · subst hd
      simp [rcons1] at h
      rw [h] at e
      have := congrArg sizeOf e
      simp at this
      omega
    · rw [rcons1] at h
      · cases hr : rcons1 d with
        | none => simp [hr] at h
        | some x =>
          simp [hr] at h
          rw [← h] at e
          simp [Datum.list, kw] at e
      · exact hd
  | _ => simp [rcons1] at h

/-- list notation in patterns is expanded to `cons` patterns -/
theorem pat_runs (hs : Std mt) {d : Datum} {p : Pat} (h : PatSyntax d p) (k : Nat) : Runs mt d k p.form k := by
  induction h with
  | lit c => exact runs_atom (by cases c <;> simp [Const.datum])
  | quote d => exact runs_quote (by rw [hs.protect]; simp)
  | var x => exact runs_sym
  | cons _ _ iha ihd => exact runs_cons hs iha ihd
  | list0 =>
    exact runs_std hs (s := "list") (by decide) (by decide) rfl (g := fun e => (cdr e).map rcons) rfl
      (by simp [rcons, Datum.list]) (runs_atom (by simp [rcons, Datum.list]))
  | @list a p r q _ _ iha ihr =>
    have := runs_std_inv hs (s := "list") (by decide) (by decide) (g := fun e => (cdr e).map rcons) rfl
      (by simp only [cdr, Option.map_some]) (rcons_ne r "list" (by decide)) ihr
    refine runs_std hs (s := "list") (by decide) (by decide) rfl (g := fun e => (cdr e).map rcons)
      (by simp only [cdr, Option.map_some]) (rcons_ne _ "list" (by decide)) ?_
    rw [rcons_cons]
    exact runs_cons hs iha this
  | @rest1 a p _ iha =>
    have h1 : rcons1 (.cons a .nil) = some a := rfl
    exact runs_std hs (s := "list-rest") (by decide) (by decide) rfl (g := fun e => (cdr e).bind rcons1)
      (by simp only [cdr, Datum.list, Option.bind_some, h1]) (rcons1_ne h1) iha
  | @rest a p b r q _ hr iha ihr =>
    cases hx : rcons1 (.cons b r) with
    | none =>
      exfalso
      obtain ⟨N, hN⟩ := ihr
      have := hN (N + 1) (by omega)
      have hp := hs.plain (s := "list-rest") (by decide) (by decide)
      rw [expandBoot, if_neg hp.protect, if_neg hp.lambda, if_neg hp.quote] at this
      simp [bind, StateT.bind, hs.std "list-rest" _ rfl, cdr, hx, liftM, monadLift, MonadLift.monadLift,
        StateT.lift] at this
    | some x =>
      have h1 : rcons1 (.cons a (.cons b r)) = some (.list [kw "cons", a, x]) := by
        rw [rcons1, hx]
        · rfl
        · simp
      have := runs_std_inv hs (s := "list-rest") (by decide) (by decide) (g := fun e => (cdr e).bind rcons1) rfl
        (by simp only [cdr, Option.bind_some, hx]) (rcons1_ne hx) ihr
      refine runs_std hs (s := "list-rest") (by decide) (by decide) rfl (g := fun e => (cdr e).bind rcons1)
        (by simp only [cdr, Option.bind_some, h1]) (rcons1_ne h1) ?_
      exact runs_cons hs iha this

theorem macroexpand_runs {e d d' : Datum} {k k' : Nat} (h : Runs mt e k d k') (hd : nsParse mt.ex [] "" [] d = some d') :
    ∃ N, ∀ n, N ≤ n → macroexpand mt n e k = some (d', k') := by
  obtain ⟨N, hN⟩ := h
  refine ⟨N + 1, fun n hn => ?_⟩
  obtain ⟨m, rfl⟩ : ∃ m, n = m + 1 := ⟨n - 1, by omega⟩
  rw [macroexpand]
  simp [bind, StateT.bind, hN m (by omega), hd, liftM, monadLift, MonadLift.monadLift, StateT.lift]

/-! ### what one clause is rewritten to -/

/-- expressions that `match` builds from a scrutinee that is a variable, a literal or a `cons` form -/
inductive Pathy : Core → Prop where
  | var (x) : Pathy (.var x)
  | lit (c) : Pathy (.lit c)
  | cons {a d} : Pathy a → Pathy d → Pathy (consC a d)
  | car {s} : Pathy s → Pathy (carC s)
  | cdr {s} : Pathy s → Pathy (cdrC s)

theorem Pathy.ok (hs : Std mt) {s : Core} (h : Pathy s) : okCore (special mt) s := by
  induction h with
  | var => trivial
  | lit => trivial
  | cons _ _ iha ihd => exact ⟨by intro x hx; cases hx; exact not_special hs (by simp), trivial, iha, ihd, trivial⟩
  | car _ ih => exact ⟨by intro x hx; cases hx; exact not_special hs (by simp), trivial, ih, trivial⟩
  | cdr _ ih => exact ⟨by intro x hx; cases hx; exact not_special hs (by simp), trivial, ih, trivial⟩

theorem turns_call0 (hs : Std mt) {n : Nat} (hn : 1 ≤ n) (k : Nat) :
    Turns mt (.list [.sym (.gen n)]) k (.app (.var (.gen n)) []) k :=
  turns_app_sym hs (not_special_gen hs hn) .nil

theorem turns_prim1 (hs : Std mt) {p : String} (hp : p ∈ ["cons", "cons?", "car", "cdr", "=", "error"]) {s : Core}
    (hok : okCore (special mt) s) (k : Nat) : Turns mt (.list [kw p, s.form]) k (.app (.var (.named p)) [s]) k :=
  turns_app_sym hs (not_special hs hp) (.cons (turns_self hs s k hok) .nil)

theorem turns_eq (hs : Std mt) {a s : Core} (ha : okCore (special mt) a) (hok : okCore (special mt) s) (k : Nat) :
    Turns mt (.list [kw "=", a.form, s.form]) k (eqC a s) k :=
  turns_app_sym hs (not_special hs (by simp)) (.cons (turns_self hs a k ha) (.cons (turns_self hs s k hok) .nil))

theorem match1_lit (c : Const) (s body cc : Datum) : match1 c.datum s body cc =
    if c.datum = s then some body else some (.list [kw "if", .list [kw "=", c.datum, s], body, .list [cc]]) := by
  cases c <;> rfl

theorem match1_turns (hs : Std mt) {n : Nat} (hn : 1 ≤ n) : ∀ (p : Pat) (s : Core), Pathy s → ∀ body : Datum,
    ∃ D, match1 p.form s.form body (.sym (.gen n)) = some D ∧
      ∀ k bc k', Turns mt body k bc k' → Turns mt D k (matchC p s bc (.gen n)) k'
  | .lit c, s, hp, body => by
    simp only [Pat.form, match1_lit, matchC]
    by_cases he : c.datum = s.form
    · simp only [if_pos he]
      exact ⟨body, rfl, fun k bc k' h => h⟩
    · simp only [if_neg he]
      exact ⟨_, rfl, fun k bc k' h => turns_ite hs (turns_eq hs (a := .lit c) trivial (hp.ok hs) k) h (turns_call0 hs hn k')⟩
  | .quote d, s, hp, body => by
    refine ⟨.list [kw "if", .list [kw "=", .list [kw "quote", d], s.form], body, .list [.sym (.gen n)]],
      by simp [Pat.form, match1, Datum.list], fun k bc k' h =>
      turns_ite hs (turns_eq hs (a := .quote d) trivial (hp.ok hs) k) h (turns_call0 hs hn k')⟩
  | .var x, s, hp, body =>
    ⟨.list [kw "let", .sym x, s.form, body], rfl, fun k bc k' h => turns_bind hs (turns_self hs s k (hp.ok hs)) h⟩
  | .cons a d, s, hp, body => by
    have test : (∀ r, s.form ≠ .cons (kw "cons") r) →
        (∀ b, matchC (.cons a d) s b (.gen n) = .ite (isConsC s) (matchC a (carC s) (matchC d (cdrC s) b (.gen n)) (.gen n))
          (.app (.var (.gen n)) [])) →
        ∃ D, match1 (Pat.cons a d).form s.form body (.sym (.gen n)) = some D ∧
          ∀ k bc k', Turns mt body k bc k' → Turns mt D k (matchC (.cons a d) s bc (.gen n)) k' := by
      intro hne hm
      obtain ⟨D2, e2, t2⟩ := match1_turns hs hn d (cdrC s) (.cdr hp) body
      obtain ⟨D1, e1, t1⟩ := match1_turns hs hn a (carC s) (.car hp) D2
      refine ⟨.list [kw "if", .list [kw "cons?", s.form], D1, .list [.sym (.gen n)]], ?_, fun k bc k' h => ?_⟩
      · have e2' : match1 d.form (.list [kw "cdr", s.form]) body (.sym (.gen n)) = some D2 := e2
        have e1' : match1 a.form (.list [kw "car", s.form]) D2 (.sym (.gen n)) = some D1 := e1
        simp only [Pat.form, Datum.list] at e1' e2' ⊢
        rw [match1]
        · simp only [kw] at e1' e2'
          simp [e2', e1', Datum.list]
        · exact hne
      · rw [hm]
        exact turns_ite hs (turns_prim1 hs (by simp) (hp.ok hs) k) (t1 k _ k' (t2 k bc k' h)) (turns_call0 hs hn k')
    cases hp with
    | var x => exact test (by simp [Core.form]) (fun b => by simp [matchC])
    | lit c => exact test (by intro r; cases c <;> simp [Core.form, Const.datum]) (fun b => by simp [matchC])
    | @cons s1 s2 h1 h2 =>
      obtain ⟨D2, e2, t2⟩ := match1_turns hs hn d s2 h2 body
      obtain ⟨D1, e1, t1⟩ := match1_turns hs hn a s1 h1 D2
      refine ⟨D1, ?_, fun k bc k' h => t1 k _ k' (t2 k bc k' h)⟩
      simp [Pat.form, consC, Core.form, Core.forms, Datum.list, match1, car, cadr, cdr, e2, e1]
    | @car s h => exact test (by simp [carC, Core.form, Core.forms, Datum.list]) (fun b => by simp [matchC, carC])
    | @cdr s h => exact test (by simp [cdrC, Core.form, Core.forms, Datum.list]) (fun b => by simp [matchC, cdrC])

theorem matchC_fv {cc x : Sym} : ∀ (p : Pat) (s b : Core), x ∈ (matchC p s b cc).fv →
    x ∈ s.fv ∨ x = cc ∨ x ∈ b.fv ∨ ∃ q, x = .named q
  | .lit c, s, b, h => by
    simp only [matchC] at h
    split at h
    · exact .inr (.inr (.inl h))
    · simp [eqC, Core.fv, Core.fvs] at h
      rcases h with rfl | h | h | h
      · exact .inr (.inr (.inr ⟨_, rfl⟩))
      · exact .inl h
      · exact .inr (.inr (.inl h))
      · exact .inr (.inl h)
  | .quote d, s, b, h => by
    simp [matchC, eqC, Core.fv, Core.fvs] at h
    rcases h with rfl | h | h | h
    · exact .inr (.inr (.inr ⟨_, rfl⟩))
    · exact .inl h
    · exact .inr (.inr (.inl h))
    · exact .inr (.inl h)
  | .var y, s, b, h => by
    simp [matchC, Core.fv] at h
    rcases h with h | h
    · exact .inl h
    · exact .inr (.inr (.inl h.1))
  | .cons a d, s, b, h => by
    have two : ∀ s1 s2, x ∈ (matchC a s1 (matchC d s2 b cc) cc).fv →
        x ∈ s1.fv ∨ x ∈ s2.fv ∨ x = cc ∨ x ∈ b.fv ∨ ∃ q, x = .named q := by
      intro s1 s2 h
      rcases matchC_fv a _ _ h with h | h | h | h
      · exact .inl h
      · exact .inr (.inr (.inl h))
      · rcases matchC_fv d _ _ h with h | h | h | h
        · exact .inr (.inl h)
        · exact .inr (.inr (.inl h))
        · exact .inr (.inr (.inr (.inl h)))
        · exact .inr (.inr (.inr (.inr h)))
      · exact .inr (.inr (.inr (.inr h)))
    by_cases hc : ∃ s1 s2, s = .app (.var (.named "cons")) [s1, s2]
    · obtain ⟨s1, s2, rfl⟩ := hc
      rw [matchC] at h
      rcases two _ _ h with h | h | h
      · exact .inl (by simp [Core.fv, Core.fvs, h])
      · exact .inl (by simp [Core.fv, Core.fvs, h])
      · exact .inr h
    · have hm : matchC (.cons a d) s b cc =
          .ite (isConsC s) (matchC a (carC s) (matchC d (cdrC s) b cc) cc) (.app (.var cc) []) := by
        rw [matchC]
        intro s1 s2 e
        exact hc ⟨s1, s2, e⟩
      rw [hm] at h
      simp only [Core.fv, Core.fvs, isConsC, List.mem_append, List.mem_singleton, List.append_nil, List.not_mem_nil,
        or_false] at h
      rcases h with ((h | h) | h) | h
      · exact .inr (.inr (.inr ⟨_, h⟩))
      · exact .inl h
      · rcases two _ _ h with h | h | h
        · simp [carC, Core.fv, Core.fvs] at h
          rcases h with rfl | h
          · exact .inr (.inr (.inr ⟨_, rfl⟩))
          · exact .inl h
        · simp [cdrC, Core.fv, Core.fvs] at h
          rcases h with rfl | h
          · exact .inr (.inr (.inr ⟨_, rfl⟩))
          · exact .inl h
        · exact .inr h
      · exact .inr (.inl h)

/-! ### clauses -/

/-- a clause as written: the pattern and what it means, the guard if there is one, and the action -/
structure Src where
  written : Datum
  pat : Pat
  guard : Option Datum
  act : Datum

/-- a guarded action is written `(where guard action)` -/
def Src.action (c : Src) : Datum :=
  match c.guard with
  | none => c.act
  | some g => .list [kw "where", g, c.act]

/-- how the clauses are written: pattern, action, pattern, action, … -/
def srcForms : List Src → List Datum
  | [] => []
  | c :: r => c.written :: c.action :: srcForms r

/-- what is expected of a clause: the pattern is one, its variables are neither generated later than `K` nor named like
the primitives that `match` uses, and guard and action can be expanded -/
structure SrcOk (mt : Macros) (K : Nat) (c : Src) : Prop where
  pat : PatSyntax c.written c.pat
  guard : ∀ g, c.guard = some g → Expandable mt K g
  act : Expandable mt K c.act
  nowhere : c.guard = none → ∀ r, c.act ≠ .cons (kw "where") r
  prims : ∀ x ∈ c.pat.vars, x ∉ ["=", "cons", "cons?", "car", "cdr"].map Sym.named
  old : ∀ n, K ≤ n → Sym.gen n ∉ c.pat.vars

/-- a clause with its expansion -/
structure SrcExpansion (mt : Macros) (K : Nat) (c : Src) (d : Clause) : Prop where
  pat : d.pat = c.pat
  guard : (c.guard = none ∧ d.guard = none) ∨ ∃ g cg, c.guard = some g ∧ d.guard = some cg ∧ IsExpansion mt K g cg
  act : IsExpansion mt K c.act d.act

/-- each of the clauses with its expansion -/
inductive SrcExpansions (mt : Macros) (K : Nat) : List Src → List Clause → Prop where
  | nil : SrcExpansions mt K [] []
  | cons {c d cs ds} : SrcExpansion mt K c d → SrcExpansions mt K cs ds → SrcExpansions mt K (c :: cs) (d :: ds)

/-- the variable a continuation is bound to does not matter for older forms -/
theorem eval_old {n : Nat} {c : Core} (ho : Old K c) (hn : K ≤ n) {bs : Env} {u : Val} {w w' : World W} {v : Val} :
    Eval E (bs ++ (.gen n, u) :: env) w c v w' ↔ Eval E (bs ++ env) w c v w' := by
  apply eval_congr
  intro x hx
  rw [find_append, find_append]
  have : Sym.gen n ≠ x := fun e => ho n hn (e ▸ hx)
  simp [find, this]

/-- the value of a function without parameters does not depend on what it does not use -/
theorem eval_captured {c : Core} {w w' : World W} {v : Val} :
    Eval E (capture (Core.lam [] c).fv env) w c v w' ↔ Eval E env w c v w' := by
  apply eval_congr
  intro x hx
  rw [find_capture, if_pos]
  simp [Core.fv, hx]

theorem clauses_turn (hs : Std mt) (hK : 1 ≤ K) (s : Core) (hp : Pathy s) : ∀ (cls : List Src)
    (_ : ∀ c ∈ cls, SrcOk mt K c) (k : Nat), K ≤ k → (∀ n, k ≤ n → Sym.gen n ∉ s.fv) →
    ∃ D k1, (∃ N, ∀ n, N ≤ n → matchHelper (macroexpand mt n) s.form (.list (srcForms cls)) k = some (D, k1)) ∧ k ≤ k1 ∧
      ∀ k2, k1 ≤ k2 → ∃ C k3 ds, Turns mt D k2 C k3 ∧ SrcExpansions mt K cls ds ∧
        (∀ n, K ≤ n → Sym.gen n ∈ C.fv → Sym.gen n ∈ s.fv) ∧
        ∀ {W : Type} (E : Ext W) env w g v r w', Unshadowed env → Settled env w g s v →
          (∀ c ∈ cls, ∀ x ∈ c.pat.vars, x ∉ s.fv) → (g = false ∨ ∀ c ∈ cls, c.guard = none) →
          (Eval E env w C r w' ↔ EvalClauses E env v w ds r w')
  | [], _, k, hk, _ => by
    refine ⟨.list [kw "error", .str "no match-help found!"], k, ⟨0, fun n _ => rfl⟩, Nat.le_refl k, fun k2 _ =>
      ⟨errorCall "no match-help found!", k2, [], turns_error hs _ k2, .nil, ?_, ?_⟩⟩
    · intro n hn hm
      exact absurd hm (old_error _ n hn)
    · intro W E env w g v r w' _ _ _ _
      constructor
      · intro h; exact .none _ _ _ h
      · intro h; cases h with | none _ _ _ h => exact h
  | c :: cls, hc, k, hk, hf => by
    have hck := hc c (by simp)
    obtain ⟨D2, k1, ⟨N2, hN2⟩, hk1, rest⟩ := clauses_turn hs hK s hp cls (fun x hx => hc x (by simp [hx])) (k + 1)
      (by omega) (fun n hn => hf n (by omega))
    -- the action with its guard
    let actD : Datum := match c.guard with
      | none => c.act
      | some g => .list [kw "if", g, c.act, .list [.sym (.gen k)]]
    have hact : extractRuleAction c.action (.sym (.gen k)) = some actD := by
      unfold Src.action
      cases hg : c.guard with
      | none =>
        have : ∀ r, c.act ≠ .cons (kw "where") r := hck.nowhere hg
        simp only [actD, hg]
        unfold extractRuleAction
        split
        · rename_i r he
          exact absurd he (this r)
        · rfl
      | some g => simp [actD, hg, Datum.list, extractRuleAction, car, cadr, cdr]
    obtain ⟨D1, e1, t1⟩ := match1_turns hs (n := k) (by omega) c.pat s hp actD
    obtain ⟨N1, hN1⟩ := macroexpand_runs (pat_runs hs hck.pat (k + 1)) (nsParse_pat c.pat [])
    refine ⟨.list [kw "let", .sym (.gen k), .list [kw "lambda", .nil, D2], D1], k1, ⟨N1 + N2, fun n hn => ?_⟩, by omega, ?_⟩
    · simp only [srcForms, Datum.list, matchHelper]
      simp only [bind, StateT.bind, gensym, Option.bind_some, liftM, monadLift, MonadLift.monadLift, StateT.lift, hact,
        hN1 n (by omega), e1, hN2 n (by omega), pure, StateT.pure]
    intro k2 hk2
    obtain ⟨C2, k3, ds, tC2, x2, f2, ev2⟩ := rest k2 hk2
    have hk3 := tC2.le
    -- expand the guard and the action
    have hA : ∃ cg ca k4, Turns mt actD k3 (match cg with | none => ca | some g => .ite g ca (.app (.var (.gen k)) [])) k4 ∧
        SrcExpansion mt K c ⟨c.pat, cg, ca⟩ ∧ Old K ca ∧ ∀ g, cg = some g → Old K g := by
      cases hg : c.guard with
      | none =>
        obtain ⟨ca, k4, ta, oa⟩ := hck.act k3 (by omega)
        exact ⟨none, ca, k4, by simpa [actD, hg] using ta, ⟨rfl, .inl ⟨hg, rfl⟩, ⟨k3, k4, by omega, ta, oa⟩⟩, oa,
          fun g h => by cases h⟩
      | some g =>
        obtain ⟨cg, k4, tg, og⟩ := hck.guard g hg k3 (by omega)
        have := tg.le
        obtain ⟨ca, k5, ta, oa⟩ := hck.act k4 (by omega)
        exact ⟨some cg, ca, k5, by simpa [actD, hg] using turns_ite hs tg ta (turns_call0 hs (by omega) k5),
          ⟨rfl, .inr ⟨g, cg, hg, rfl, k3, k4, by omega, tg, og⟩, ⟨k4, k5, by omega, ta, oa⟩⟩, oa,
          fun g h => by cases h; exact og⟩
    obtain ⟨cg, ca, k4, tA, xA, oa, og⟩ := hA
    generalize hAC : (match cg with | none => ca | some g => Core.ite g ca (.app (.var (.gen k)) [])) = AC at tA
    refine ⟨.bind (.gen k) (.lam [] C2) (matchC c.pat s AC (.gen k)), k4, ⟨c.pat, cg, ca⟩ :: ds,
      turns_bind hs (turns_lam hs (ps := []) tC2) (t1 k3 AC k4 tA), .cons xA x2, ?_, ?_⟩
    · intro n hn hm
      simp only [Core.fv, List.mem_append, List.mem_filter, decide_eq_true_eq, List.not_mem_nil, not_false_eq_true,
        and_true] at hm
      rcases hm with hm | ⟨hm, hne⟩
      · exact f2 n hn hm
      · rcases matchC_fv _ _ _ hm with h | h | h | ⟨q, h⟩
        · exact h
        · exact absurd h hne
        · exfalso
          subst hAC
          cases cg with
          | none => exact oa n hn h
          | some g =>
            simp [Core.fv, Core.fvs] at h
            rcases h with h | h | h
            · exact og g rfl n hn h
            · exact oa n hn h
            · exact hne (by rw [h])
        · cases h
    intro W E env w g v r w' hu hst hv hg
    have hvc := hv c (by simp)
    have ih : ∀ w, Settled env w g s v → ∀ r w', (Eval E env w C2 r w' ↔ EvalClauses E env v w ds r w') :=
      fun w hst r w' => ev2 E env w g v r w' hu hst (fun x hx => hv x (by simp [hx]))
        (hg.imp id fun h x hx => h x (by simp [hx]))
    have hme := match_eval (E := E) (w := w) (g := g) (n := k) (more := C2) (cenv := capture (Core.lam [] C2).fv env) c.pat s v
      ((.gen k, .clo [] C2 (capture (Core.lam [] C2).fv env)) :: env)
      (fun q hq => by simpa [find] using hu q hq)
      (hst.extend (ext := [(.gen k, .clo [] C2 (capture (Core.lam [] C2).fv env))]) (by simpa using hf k (Nat.le_refl k)))
      (by simp [find]) hvc hck.prims (hck.old k hk) AC r w'
    have hb : Eval E env w (.bind (.gen k) (.lam [] C2) (matchC c.pat s AC (.gen k))) r w' ↔
        Eval E ((.gen k, .clo [] C2 (capture (Core.lam [] C2).fv env)) :: env) w (matchC c.pat s AC (.gen k)) r w' := by
      rw [eval_bind]
      constructor
      · rintro ⟨u, w1, h1, h2⟩
        obtain ⟨rfl, rfl⟩ := eval_lam.1 h1
        exact h2
      · intro h
        exact ⟨_, _, eval_lam.2 ⟨rfl, rfl⟩, h⟩
    rw [hb, hme]
    cases hbind : c.pat.bind v with
    | none =>
      simp only [reduceCtorEq, false_and, exists_false, false_or, true_and]
      rw [eval_captured, ih w hst]
      constructor
      · intro h; exact .miss _ _ _ _ _ hbind h
      · intro h
        cases h with
        | miss _ _ _ _ _ _ h => exact h
        | plain _ _ _ _ _ _ h1 => rw [hbind] at h1; cases h1
        | hit _ _ _ _ _ _ _ _ h1 => rw [hbind] at h1; cases h1
        | refuse _ _ _ _ _ _ _ _ _ h1 => rw [hbind] at h1; cases h1
    | some bs =>
      simp only [Option.some.injEq, exists_eq_left', reduceCtorEq, false_and, or_false]
      subst hAC
      cases hcg : cg with
      | none =>
        subst hcg
        simp only []
        rw [eval_old oa hk]
        constructor
        · intro h; exact .plain _ _ _ _ _ _ hbind rfl h
        · intro h
          cases h with
          | miss _ _ _ _ _ h1 => rw [hbind] at h1; cases h1
          | plain _ _ _ _ _ _ h1 _ h => rw [hbind] at h1; cases h1; exact h
          | hit _ _ _ _ _ _ _ _ _ h2 => cases h2
          | refuse _ _ _ _ _ _ _ _ _ _ h2 => cases h2
      | some cg' =>
        subst hcg
        have hgf : g = false := by
          rcases hg with h | h
          · exact h
          · have := h c (by simp)
            rcases xA.guard with ⟨_, h2⟩ | ⟨g', _, h1, _⟩
            · cases h2
            · rw [this] at h1; cases h1
        subst hgf
        simp only []
        rw [eval_ite]
        have hcc : find (.gen k) (bs.reverse ++ (.gen k, .clo [] C2 (capture (Core.lam [] C2).fv env)) :: env) =
            some (.clo [] C2 (capture (Core.lam [] C2).fv env)) := by
          rw [find_ext]
          · simp [find]
          · intro b hb e
            exact hck.old k hk (e ▸ bind_names _ _ _ hbind b (by simpa using hb))
        constructor
        · rintro ⟨u, w1, h1, h2⟩
          rw [eval_old (og _ rfl) hk] at h1
          rcases h2 with ⟨rfl, h2⟩ | ⟨hu', h2⟩
          · rw [eval_old oa hk] at h2
            exact .hit _ _ _ _ _ _ _ _ hbind rfl h1 h2
          · rw [eval_call0 hcc, eval_captured, ih w1 (hst.world w1)] at h2
            exact .refuse _ _ _ _ _ _ _ _ _ hbind rfl h1 hu' h2
        · intro h
          cases h with
          | miss _ _ _ _ _ h1 => rw [hbind] at h1; cases h1
          | plain _ _ _ _ _ _ h1 h2 => cases h2
          | hit _ _ _ _ _ _ w1 _ h1 h2 h3 h4 =>
            rw [hbind] at h1; cases h1; cases h2
            exact ⟨_, w1, (eval_old (og _ rfl) hk).2 h3, .inl ⟨rfl, (eval_old oa hk).2 h4⟩⟩
          | refuse _ _ _ _ _ u _ w1 _ h1 h2 h3 h4 h5 =>
            rw [hbind] at h1; cases h1; cases h2
            refine ⟨_, w1, (eval_old (og _ rfl) hk).2 h3, .inr ⟨h4, ?_⟩⟩
            rw [eval_call0 hcc, eval_captured, ih w1 (hst.world w1)]
            exact h5

/-! ### the theorems -/

theorem evalMatch_iff {w w' : World W} {e : Core} {ds : List Clause} {r : Val} : EvalMatch E env w e ds r w' ↔
    ∃ v w1, Eval E env w e v w1 ∧ EvalClauses E env v w1 ds r w' := by
  constructor
  · intro h
    cases h
    exact ⟨_, _, ‹_›, ‹_›⟩
  · rintro ⟨v, w1, h1, h2⟩
    exact .mk _ _ _ _ _ _ _ h1 h2

theorem expansions_old {cls : List Src} {ds : List Clause} (h : SrcExpansions mt K cls ds) :
    ∀ d ∈ ds, Old K d.act ∧ ∀ g, d.guard = some g → Old K g := by
  induction h with
  | nil => simp
  | cons h1 _ ih =>
    intro x hx
    rcases List.mem_cons.1 hx with rfl | hx
    · refine ⟨h1.act.choose_spec.choose_spec.2.2, fun g hg => ?_⟩
      rcases h1.guard with ⟨_, h⟩ | ⟨g', cg, _, h2, h3⟩
      · rw [hg] at h; cases h
      · rw [hg] at h2; cases h2; exact h3.choose_spec.choose_spec.2.2
    · exact ih x hx

theorem evalClauses_old {n : Nat} {u v : Val} (hn : K ≤ n) {ds : List Clause}
    (ho : ∀ d ∈ ds, Old K d.act ∧ ∀ g, d.guard = some g → Old K g) {w w' : World W} {r : Val} :
    EvalClauses E ((.gen n, u) :: env) v w ds r w' ↔ EvalClauses E env v w ds r w' := by
  constructor
  · intro h
    induction h with
    | none _ _ _ h => exact .none _ _ _ ((eval_old (bs := []) (old_error _) hn).1 h)
    | miss _ c cs _ _ h1 _ ih => exact .miss _ _ _ _ _ h1 (ih fun d hd => ho d (by simp [hd]))
    | plain _ c cs _ _ _ h1 h2 h3 => exact .plain _ _ _ _ _ _ h1 h2 ((eval_old (ho c (by simp)).1 hn).1 h3)
    | hit _ c cs _ g _ _ _ h1 h2 h3 h4 =>
      exact .hit _ _ _ _ _ _ _ _ h1 h2 ((eval_old ((ho c (by simp)).2 g h2) hn).1 h3)
        ((eval_old (ho c (by simp)).1 hn).1 h4)
    | refuse _ c cs _ g _ _ _ _ h1 h2 h3 h4 _ ih =>
      exact .refuse _ _ _ _ _ _ _ _ _ h1 h2 ((eval_old ((ho c (by simp)).2 g h2) hn).1 h3) h4
        (ih fun d hd => ho d (by simp [hd]))
  · intro h
    induction h with
    | none _ _ _ h => exact .none _ _ _ ((eval_old (bs := []) (old_error _) hn).2 h)
    | miss _ c cs _ _ h1 _ ih => exact .miss _ _ _ _ _ h1 (ih fun d hd => ho d (by simp [hd]))
    | plain _ c cs _ _ _ h1 h2 h3 => exact .plain _ _ _ _ _ _ h1 h2 ((eval_old (ho c (by simp)).1 hn).2 h3)
    | hit _ c cs _ g _ _ _ h1 h2 h3 h4 =>
      exact .hit _ _ _ _ _ _ _ _ h1 h2 ((eval_old ((ho c (by simp)).2 g h2) hn).2 h3)
        ((eval_old (ho c (by simp)).1 hn).2 h4)
    | refuse _ c cs _ g _ _ _ _ h1 h2 h3 h4 _ ih =>
      exact .refuse _ _ _ _ _ _ _ _ _ h1 h2 ((eval_old ((ho c (by simp)).2 g h2) hn).2 h3) h4
        (ih fun d hd => ho d (by simp [hd]))

/-- a form that is neither a variable nor a literal nor a call of `cons` -/
structure Computed (c : Core) : Prop where
  var : ∀ x, c ≠ .var x
  lit : ∀ l, c ≠ .lit l
  cons : ∀ args, c ≠ .app (.var (.named "cons")) args

theorem Computed.form {c : Core} (h : Computed c) : ∃ a d, c.form = .cons a d ∧ a ≠ kw "cons" := by
  cases c with
  | var x => exact absurd rfl (h.var x)
  | lit l => exact absurd rfl (h.lit l)
  | app f args =>
    refine ⟨_, _, rfl, fun e => ?_⟩
    have := form_sym e
    subst this
    exact h.cons args rfl
  | _ => exact ⟨_, _, rfl, by simp [kw]⟩

/-- `(match e p1 a1 p2 a2 …)` evaluates `e` once and runs the action of the first clause whose pattern matches and whose
guard holds. Here `e` is any form that does not expand to a variable, a literal or a call of `cons`; for these see
`C43_match_settled_partial`. Missing: the primitives `=`, `cons`, `cons?`, `car`, `cdr` must not be bound locally
(otherwise the tests call the user's functions), and `e` contains no import. -/
theorem C43_match_partial (hs : Std mt) (hK : 1 ≤ K) (e : Datum) (he : Expandable mt K e)
    (hc : ∀ c, IsExpansion mt K e c → Computed c ∧ noImport c) (cls : List Src) (hcls : ∀ c ∈ cls, SrcOk mt K c)
    (k : Nat) (hk : K ≤ k) :
    ∃ c k' ce ds, Turns mt (.cons (kw "match") (.cons e (.list (srcForms cls)))) k c k' ∧ Old K c ∧
      IsExpansion mt K e ce ∧ SrcExpansions mt K cls ds ∧
      ∀ {W : Type} (E : Ext W) env w r w', Unshadowed env →
        (Eval E env w c r w' ↔ EvalMatch E env w ce ds r w') := by
  obtain ⟨ce, k1, te, oe⟩ := he k hk
  have hx : IsExpansion mt K e ce := ⟨k, k1, hk, te, oe⟩
  obtain ⟨hcomp, hni⟩ := hc ce hx
  have hk1 := te.le
  obtain ⟨N1, hN1⟩ := macroexpand_runs te.run (nsParse_id (mt := mt) ce [] te.ok hni)
  obtain ⟨D, k2, ⟨N2, hN2⟩, hk2, hD⟩ := clauses_turn hs hK (.var (.gen k1)) (.var _) cls hcls (k1 + 1) (by omega)
    (by intro n hn hm; simp [Core.fv] at hm; omega)
  obtain ⟨C, k3, ds, tC, xC, fC, ev⟩ := hD k2 (Nat.le_refl _)
  obtain ⟨a, d, hform, hcons⟩ := hcomp.form
  have hk3 := tC.le
  have tB := turns_bind hs (x := .gen k1) (turns_self hs ce k2 te.ok) tC
  refine ⟨.bind (.gen k1) ce C, k3, ce, ds, ⟨runs_macro (hs.plain (by decide) (by decide)) (hs.std "match" _ rfl)
    ⟨N1 + N2, fun n hn => ?_⟩ (by simp [Datum.list, kw]) tB.run, by omega, tB.ok⟩, ?_, hx, xC, ?_⟩
  · have h2 := hN2 n (by omega)
    simp only [Core.form] at h2
    unfold rewriteMatch
    simp only [cadr, cddr, cdr, car, bind, StateT.bind, Option.bind_some, liftM, monadLift, MonadLift.monadLift,
      StateT.lift, hN1 n (by omega), hform, if_neg hcons, gensym, h2, pure, StateT.pure]
  · refine old_bind oe fun n hn hm => ?_
    have := fC n hn hm
    simp [Core.fv] at this
    rw [this]
  · intro W E env w r w' hu
    have key : ∀ v w1 r w', (Eval E ((.gen k1, v) :: env) w1 C r w' ↔ EvalClauses E env v w1 ds r w') := by
      intro v w1 r w'
      rw [ev E _ w1 false v r w' (fun q hq => by simpa [find] using hu q hq) (.local (by simp [find]))
        (fun c hc x hx hm => by
          simp [Core.fv] at hm
          subst hm
          exact (hcls c hc).old k1 (by omega) hx) (.inl rfl)]
      exact evalClauses_old (K := K) (by omega) (expansions_old xC)
    rw [eval_bind]
    constructor
    · rintro ⟨u, w1, h1, h2⟩
      exact .mk _ _ _ _ _ _ _ h1 ((key _ _ _ _).1 h2)
    · intro h
      obtain ⟨u, w1, h1, h2⟩ := evalMatch_iff.1 h
      exact ⟨u, w1, h1, (key _ _ _ _).2 h2⟩

/-- scrutinees that `match` uses as they are: variables, literals and calls of `cons` with such operands -/
inductive Direct : Core → Prop where
  | var (x) : Direct (.var x)
  | lit (c) : Direct (.lit c)
  | cons {a d} : Direct a → Direct d → Direct (consC a d)

theorem Direct.pathy {s : Core} (h : Direct s) : Pathy s := by
  induction h with
  | var x => exact .var x
  | lit c => exact .lit c
  | cons _ _ iha ihd => exact .cons iha ihd

theorem Direct.noImport {s : Core} (h : Direct s) : noImport s := by
  induction h with
  | var x => trivial
  | lit c => trivial
  | cons _ _ iha ihd => exact ⟨trivial, iha, ihd, trivial⟩

theorem match_settled (hs : Std mt) (hK : 1 ≤ K) (e : Datum) (s : Core) (hd : Direct s)
    (k : Nat) (he : Turns mt e k s k) (ho : ∀ n, k ≤ n → Sym.gen n ∉ s.fv) (cls : List Src) (hcls : ∀ c ∈ cls, SrcOk mt K c)
    (hv : ∀ c ∈ cls, ∀ x ∈ c.pat.vars, x ∉ s.fv) (hk : K ≤ k) :
    ∃ c k' ds, Turns mt (.cons (kw "match") (.cons e (.list (srcForms cls)))) k c k' ∧
      (∀ n, K ≤ n → Sym.gen n ∈ c.fv → Sym.gen n ∈ s.fv) ∧ SrcExpansions mt K cls ds ∧
      ∀ {W : Type} (E : Ext W) env w g v r w', Unshadowed env → Settled env w g s v →
        (g = false ∨ ∀ c ∈ cls, c.guard = none) →
        (Eval E env w c r w' ↔ EvalMatch E env w s ds r w') ∧
        (Eval E env w c r w' ↔ EvalClauses E env v w ds r w') := by
  obtain ⟨N1, hN1⟩ := macroexpand_runs he.run (nsParse_id (mt := mt) s [] he.ok hd.noImport)
  obtain ⟨D, k2, ⟨N2, hN2⟩, hk2, hD⟩ := clauses_turn hs hK s hd.pathy cls hcls k hk ho
  obtain ⟨C, k3, ds, tC, xC, fC, ev⟩ := hD k2 (Nat.le_refl _)
  have hk3 := tC.le
  have hne : D ≠ .cons (kw "match") (.cons e (.list (srcForms cls))) := by
    have := hN2 N2 (Nat.le_refl _)
    intro hD
    subst hD
    cases cls with
    | nil => simp [srcForms, Datum.list, matchHelper, pure, StateT.pure, kw] at this
    | cons c cls =>
      simp only [srcForms, Datum.list, matchHelper, bind, StateT.bind, pure, StateT.pure] at this
      simp only [Option.bind_eq_some_iff] at this
      obtain ⟨_, _, _, _, _, _, _, _, _, _, h⟩ := this
      simp [kw] at h
  refine ⟨C, k3, ds, ⟨runs_macro (hs.plain (by decide) (by decide)) (hs.std "match" _ rfl)
    ⟨N1 + N2, fun n hn => ?_⟩ hne tC.run, by omega, tC.ok⟩, fC, xC, ?_⟩
  · have h2 := hN2 n (by omega)
    unfold rewriteMatch
    simp only [cadr, cddr, cdr, car, bind, StateT.bind, Option.bind_some, liftM, monadLift, MonadLift.monadLift,
      StateT.lift, hN1 n (by omega), pure, StateT.pure]
    cases hd with
    | var x => exact h2
    | lit c => cases c <;> exact h2
    | cons => exact h2
  · intro W E env w g v r w' hu hst hg
    have := ev E env w g v r w' hu hst hv hg
    refine ⟨this.trans ⟨fun h => .mk _ _ _ _ _ _ _ ((hst.eval hu).2 ⟨rfl, rfl⟩) h, ?_⟩, this⟩
    intro h
    obtain ⟨u, w1, h1, h2⟩ := evalMatch_iff.1 h
    obtain ⟨rfl, rfl⟩ := (hst.eval hu).1 h1
    exact h2

/-- the same if `e` expands to a variable, a literal or `cons` of such. Missing: pattern variables must differ from the
variables in the scrutinee, and if there are guards these must be local (`g = false`). `C43_same_name`,
`C43_guard_changes_scrutinee` and `C43_effects_repeated` show that both are needed, and that a call of `cons` with other
operands is not treated like this. -/
theorem C43_match_settled_partial (hs : Std mt) (hK : 1 ≤ K) (e : Datum) (s : Core) (hd : Direct s)
    (he : ∀ k, K ≤ k → Turns mt e k s k) (ho : Old K s) (cls : List Src) (hcls : ∀ c ∈ cls, SrcOk mt K c)
    (hv : ∀ c ∈ cls, ∀ x ∈ c.pat.vars, x ∉ s.fv) (k : Nat) (hk : K ≤ k) :
    ∃ c k' ds, Turns mt (.cons (kw "match") (.cons e (.list (srcForms cls)))) k c k' ∧ Old K c ∧
      SrcExpansions mt K cls ds ∧
      ∀ {W : Type} (E : Ext W) env w g v r w', Unshadowed env → Settled env w g s v →
        (g = false ∨ ∀ c ∈ cls, c.guard = none) →
        (Eval E env w c r w' ↔ EvalMatch E env w s ds r w') ∧
        (Eval E env w c r w' ↔ EvalClauses E env v w ds r w') := by
  obtain ⟨c, k', ds, t, f, x, ev⟩ := match_settled hs hK e s hd k (he k hk) (fun n hn => ho n (by omega)) cls hcls hv hk
  exact ⟨c, k', ds, t, fun n hn hm => ho n hn (f n hn hm), x, ev⟩

/-! ### what goes wrong otherwise -/

/-- `(match x (cons x y) y)` for the pair of a pair and 9: `y` is the rest of the first component -/
theorem C43_same_name : ∃ c k', expandBoot initMacros 40
      (.list [kw "match", kw "x", .list [kw "cons", kw "x", kw "y"], kw "y"]) 1 = some (c.form, k') ∧
    Eval noExt [(.named "x", .cons (.cons (.int 7) (.int 8)) (.int 9))] noWorld c (.int 8) noWorld ∧
    EvalMatch noExt [(.named "x", .cons (.cons (.int 7) (.int 8)) (.int 9))] noWorld (.var (.named "x"))
      [⟨.cons (.var (.named "x")) (.var (.named "y")), none, .var (.named "y")⟩] (.int 9) noWorld := by
  refine ⟨.bind (.gen 1) (.lam [] (errorCall "no match-help found!"))
    (matchC (.cons (.var (.named "x")) (.var (.named "y"))) (.var (.named "x")) (.var (.named "y")) (.gen 1)), 2, rfl,
    evalF_sound 20 rfl, ?_⟩
  exact .mk _ _ _ _ _ _ _ (.local _ _ _ _ rfl) (.plain _ _ _ _ _ _ rfl rfl (.local _ _ _ _ rfl))

/-- `(match x y (where (do (set 'x 2) false) y) z z)` for a global variable `x` that is 1: the second clause sees the 2
that the guard of the first put there -/
theorem C43_guard_changes_scrutinee : ∃ c k' w1, expandBoot initMacros 40
      (.list [kw "match", kw "x", kw "y",
        .list [kw "where", .list [kw "do", .list [kw "set", .list [kw "quote", kw "x"], .int 2], .bool false], kw "y"],
        kw "z", kw "z"]) 1 = some (c.form, k') ∧
    Eval noExt [] (noWorld.set (.named "x") (.int 1)) c (.int 2) w1 ∧
    EvalMatch noExt [] (noWorld.set (.named "x") (.int 1)) (.var (.named "x"))
      [⟨.var (.named "y"), some (.seq (.app (.var (.named "set")) [.quote (.sym (.named "x")), .lit (.int 2)]) (.lit (.bool false))),
        .var (.named "y")⟩, ⟨.var (.named "z"), none, .var (.named "z")⟩] (.int 1) w1 := by
  let setX : Core := .app (.var (.named "set")) [.quote (.sym (.named "x")), .lit (.int 2)]
  have hset : ∀ env w, find (.named "set") env = none → Eval noExt env w setX (.int 2) (w.set (.named "x") (.int 2)) := by
    intro env w h
    rw [eval_prim2 rfl h]
    exact ⟨_, _, _, _, eval_quote.2 ⟨rfl, rfl⟩, eval_lit.2 ⟨rfl, rfl⟩, rfl⟩
  refine ⟨.bind (.gen 1) (.lam [] (.bind (.gen 2) (.lam [] (errorCall "no match-help found!"))
      (.bind (.named "z") (.var (.named "x")) (.var (.named "z")))))
    (.bind (.named "y") (.var (.named "x")) (.ite (.seq setX (.lit (.bool false))) (.var (.named "y")) (.app (.var (.gen 1)) []))),
    3, _, rfl, evalF_sound 20 rfl, ?_⟩
  refine .mk _ _ _ (.int 1) _ _ _ (.global _ _ _ _ rfl rfl) (.refuse _ _ _ _ _ _ _ _ _ rfl rfl
    (.seq _ _ _ _ _ _ _ _ (hset _ _ rfl) (.lit _ _ _)) (by simp [Const.datum, Datum.val])
    (.plain _ _ _ _ _ _ rfl rfl (.local _ _ _ _ rfl)))

/-- `(match (cons (set 'g (cons 1 g)) 2) (cons 1 z) z (cons y z) y)`: the scrutinee is evaluated anew by every test, so
`y` is `(1 1)` and not `(1)` when `g` was `()` -/
theorem C43_effects_repeated :
    let s : Core := consC (.app (.var (.named "set")) [.quote (.sym (.named "g")), consC (.lit (.int 1)) (.var (.named "g"))]) (.lit (.int 2))
    ∃ c k' w1 w2, expandBoot initMacros 40 (.list [kw "match", s.form, .list [kw "cons", .int 1, kw "z"], kw "z",
        .list [kw "cons", kw "y", kw "z"], kw "y"]) 1 = some (c.form, k') ∧
    Eval noExt [] (noWorld.set (.named "g") .nil) c (.cons (.int 1) (.cons (.int 1) .nil)) w1 ∧
    EvalMatch noExt [] (noWorld.set (.named "g") .nil) s
      [⟨.cons (.lit (.int 1)) (.var (.named "z")), none, .var (.named "z")⟩,
       ⟨.cons (.var (.named "y")) (.var (.named "z")), none, .var (.named "y")⟩] (.cons (.int 1) .nil) w2 := by
  intro s
  refine ⟨.bind (.gen 1) (.lam [] (.bind (.gen 2) (.lam [] (errorCall "no match-help found!"))
      (matchC (.cons (.var (.named "y")) (.var (.named "z"))) s (.var (.named "y")) (.gen 2))))
    (matchC (.cons (.lit (.int 1)) (.var (.named "z"))) s (.var (.named "z")) (.gen 1)),
    3, _, (noWorld.set (.named "g") .nil).set (.named "g") (.cons (.int 1) .nil), rfl, evalF_sound 20 rfl, ?_⟩
  refine .mk _ _ _ (.cons (.cons (.int 1) .nil) (.int 2)) _ _ _ (evalF_sound 20 rfl) ?_
  exact .miss _ _ _ _ _ (by simp [Pat.bind, Val.datum, Const.datum]) (.plain _ _ _ _ _ _ rfl rfl (.local _ _ _ _ rfl))

/-! ### examples -/

/-- the clauses `[x . y] (where x (set 'g 1))` and `z x` -/
def clausesExample : List Src :=
  [⟨.list [kw "list-rest", kw "p", .int 3, kw "y"], .cons (.var (.named "p")) (.cons (.lit (.int 3)) (.var (.named "y"))),
     some (kw "x"), setG.form⟩,
   ⟨kw "z", .var (.named "z"), none, kw "x"⟩]

theorem clausesExample_ok : ∀ c ∈ clausesExample, SrcOk initMacros 1 c := by
  intro c hc
  simp only [clausesExample, List.mem_cons, List.not_mem_nil, or_false] at hc
  rcases hc with rfl | rfl
  · exact ⟨.rest (.var _) (.rest (.lit (.int 3)) (.rest1 (.var _))), fun g hg => by cases hg; exact x_expandable 1,
      setG_expandable 1, by simp, by simp [Pat.vars], by simp [Pat.vars]⟩
  · exact ⟨.var _, by simp, x_expandable 1, by simp, by simp [Pat.vars], by simp [Pat.vars]⟩

example := C43_match_settled_partial initMacros_std (Nat.le_refl 1) (kw "x") (.var (.named "x")) (.var _)
  (fun _ _ => turns_var) (by intro n _ h; simp [Core.fv] at h) clausesExample clausesExample_ok
  (by simp [clausesExample, Pat.vars, Core.fv]) 1 (Nat.le_refl 1)

theorem setG_only {c : Core} (h : IsExpansion initMacros 1 setG.form c) : c.form = setG.form := by
  obtain ⟨k, k', _, t, _⟩ := h
  obtain ⟨N1, h1⟩ := t.run
  obtain ⟨N2, h2⟩ := (setG_turns initMacros_std rfl k).run
  have h1 := h1 (N1 + N2) (by omega)
  rw [h2 (N1 + N2) (by omega)] at h1
  injection h1 with h1
  injection h1 with h1 _
  exact h1.symm

/-- an expression written without `do` contains no import -/
theorem setG_computed {c : Core} (h : IsExpansion initMacros 1 setG.form c) : Computed c ∧ noImport c := by
  have hf := setG_only h
  obtain ⟨_, _, _, t, _⟩ := h
  have hok := t.ok
  cases c with
  | lit l => cases l <;> simp [setG, Core.form, Const.datum] at hf
  | var x => simp [setG, Core.form] at hf
  | app f args =>
    simp only [setG, Core.form, Core.forms, Datum.list] at hf
    injection hf with h1 h2
    have := form_sym h1
    subst this
    refine ⟨⟨by simp, by simp, by simp⟩, trivial, ?_⟩
    match args, h2, hok with
    | [_], h2, _ => simp [Core.forms, Datum.list] at h2
    | _ :: _ :: _ :: _, h2, _ => simp [Core.forms, Datum.list] at h2
    | [a, b], h2, hok =>
      simp only [Core.forms, Datum.list] at h2
      injection h2 with h3 h2
      injection h2 with h4 _
      have h5 : b = .lit (.int 1) := form_datum (c := .int 1) (by simpa [Const.datum] using h4.symm)
      subst h5
      refine ⟨?_, trivial, trivial⟩
      cases a with
      | app f as =>
        simp only [Core.form] at h3
        injection h3 with h6 _
        exact absurd (special_kw (mt := initMacros) (by simp)) (hok.2.2.1.1 _ (form_sym h6))
      | _ => first | trivial | simp [Core.form, Datum.list] at h3
  | _ => simp [setG, Core.form, Core.forms, Datum.list] at hf

example := C43_match_partial initMacros_std (Nat.le_refl 1) setG.form (setG_expandable 1)
  (fun _ h => setG_computed h) clausesExample clausesExample_ok 1 (Nat.le_refl 1)

/-- the second clause is chosen for a pair whose second component does not start with 3 -/
example : EvalMatch noExt [(.named "x", .bool true)] noWorld (consC (.lit (.int 1)) (.lit .nil))
    [⟨.cons (.var (.named "p")) (.cons (.lit (.int 3)) (.var (.named "y"))), some (.var (.named "x")), setG⟩,
     ⟨.var (.named "z"), none, .var (.named "z")⟩] (.cons (.int 1) .nil) noWorld :=
  .mk _ _ _ _ _ _ _ (evalF_sound 5 rfl) (.miss _ _ _ _ _ rfl (.plain _ _ _ _ _ _ rfl rfl (.local _ _ _ _ rfl)))

end Cora.Macro
