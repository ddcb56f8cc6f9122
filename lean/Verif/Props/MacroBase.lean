import Verif.Lemmas.Lang
import Verif.Spec.Forms
import Verif.Model.Macro
/-
What it means that the expander turns a form into a core form, and how the expander treats the core forms.
-/
open Spec.Lang
namespace Cora.Macro

/-- names with a meaning of their own at the head of a form -/
def special (mt : Macros) (x : Sym) : Prop :=
  x ∈ ["quote", "lambda", "if", "do", "let", "def", "ns"].map Sym.named ∨ (mt.fn x).isSome ∨ x = mt.protect

/-- the macros of init.cora are there, the names of core forms and primitives are no macros, and neither are generated
symbols. `*protect-symbol*` is the first symbol generated. -/
structure Std (mt : Macros) : Prop where
  std : ∀ s f, stdMacro s = some f → mt.fn (.named s) = some f
  core : ∀ s ∈ ["quote", "lambda", "if", "do", "cons", "cons?", "car", "cdr", "=", "error", "def", "ns"],
    mt.fn (.named s) = none
  gen : ∀ n, mt.fn (.gen n) = none
  protect : mt.protect = .gen 0

mutual
/-- no form is headed by a name for which `sp` holds -/
def okCore (sp : Sym → Prop) : Core → Prop
  | .lit _ => True
  | .quote _ => True
  | .var _ => True
  | .lam _ b => okCore sp b
  | .ite a b c => okCore sp a ∧ okCore sp b ∧ okCore sp c
  | .seq a b => okCore sp a ∧ okCore sp b
  | .bind _ e b => okCore sp e ∧ okCore sp b
  | .app f args => (∀ x, f = .var x → ¬ sp x) ∧ okCore sp f ∧ okCores sp args
def okCores (sp : Sym → Prop) : List Core → Prop
  | [] => True
  | c :: r => okCore sp c ∧ okCores sp r
end

/-- with enough steps the expander turns `e` into `d` -/
def Runs (mt : Macros) (e : Datum) (k : Nat) (d : Datum) (k' : Nat) : Prop :=
  ∃ N, ∀ n, N ≤ n → expandBoot mt n e k = some (d, k')

/-- the expander turns `e` into the core form `c`, and nothing in `c` is left to expand. `k` and `k'` count the
generated symbols. -/
structure Turns (mt : Macros) (e : Datum) (k : Nat) (c : Core) (k' : Nat) : Prop where
  run : Runs mt e k c.form k'
  le : k ≤ k'
  ok : okCore (special mt) c

/-- no free variable of `c` is a symbol generated as number `K` or later -/
def Old (K : Nat) (c : Core) : Prop := ∀ n, K ≤ n → Sym.gen n ∉ c.fv

/-- whenever at least `K` symbols were generated before, `e` turns into some core form; its free variables are older
than that -/
def Expandable (mt : Macros) (K : Nat) (e : Datum) : Prop := ∀ k, K ≤ k → ∃ c k', Turns mt e k c k' ∧ Old K c

/-- `c` is what `e` turns into, at some point after `K` symbols were generated -/
def IsExpansion (mt : Macros) (K : Nat) (e : Datum) (c : Core) : Prop := ∃ k k', K ≤ k ∧ Turns mt e k c k' ∧ Old K c

/-- each of the forms with its expansion -/
inductive Expansions (mt : Macros) (K : Nat) : List Datum → List Core → Prop where
  | nil : Expansions mt K [] []
  | cons {e c es cs} : IsExpansion mt K e c → Expansions mt K es cs → Expansions mt K (e :: es) (c :: cs)

/-- the expander on a list of forms -/
inductive RunsList (mt : Macros) : List Datum → Nat → List Datum → Nat → Prop where
  | nil {k} : RunsList mt [] k [] k
  | cons {e k d k1 es ds k2} : Runs mt e k d k1 → RunsList mt es k1 ds k2 → RunsList mt (e :: es) k (d :: ds) k2

variable {mt : Macros}

theorem runs_atom {e : Datum} {k : Nat} (h : ∀ a d, e ≠ .cons a d) : Runs mt e k e k := by
  refine ⟨1, fun n hn => ?_⟩
  obtain ⟨m, rfl⟩ : ∃ m, n = m + 1 := ⟨n - 1, by omega⟩
  cases e with
  | cons a d => exact absurd rfl (h a d)
  | _ => simp [expandBoot, pure, StateT.pure]

theorem runs_sym {x : Sym} {k : Nat} : Runs mt (.sym x) k (.sym x) k := runs_atom (by simp)

theorem mapM_runs {es ds : List Datum} {k k' : Nat} (h : RunsList mt es k ds k') :
    ∃ N, ∀ n, N ≤ n → mapM (expandBoot mt n) (.list es) k = some (.list ds, k') := by
  induction h with
  | nil => exact ⟨0, fun n _ => by simp [Datum.list, mapM, pure, StateT.pure]⟩
  | cons h1 _ ih =>
    obtain ⟨N1, h1⟩ := h1
    obtain ⟨N2, h2⟩ := ih
    refine ⟨N1 + N2, fun n hn => ?_⟩
    simp only [Datum.list, mapM, bind, StateT.bind, h1 n (by omega), h2 n (by omega), Option.bind_some, pure,
      StateT.pure]

/-- what the head of a form must not be to be treated as an ordinary form -/
structure Plain (mt : Macros) (h : Datum) : Prop where
  protect : h ≠ .sym mt.protect
  lambda : h ≠ kw "lambda"
  quote : h ≠ kw "quote"

theorem runs_list {h : Datum} {es ds : List Datum} {k k' : Nat} (hp : Plain mt h)
    (hm : ∀ x, h = .sym x → mt.fn x = none) (hr : RunsList mt (h :: es) k ds k') :
    Runs mt (.list (h :: es)) k (.list ds) k' := by
  obtain ⟨N, hN⟩ := mapM_runs hr
  refine ⟨N + 1, fun n hn => ?_⟩
  obtain ⟨m, rfl⟩ : ∃ m, n = m + 1 := ⟨n - 1, by omega⟩
  have := hN m (by omega)
  simp only [Datum.list] at this ⊢
  rw [expandBoot, if_neg hp.protect, if_neg hp.lambda, if_neg hp.quote]
  cases h with
  | sym x => simp [bind, StateT.bind, hm x rfl, pure, StateT.pure, this]
  | _ => simp [bind, StateT.bind, pure, StateT.pure, this]

theorem runs_macro {x : Sym} {f : MacroFn} {t e1 d : Datum} {k k1 k' : Nat} (hp : Plain mt (.sym x))
    (hm : mt.fn x = some f)
    (hf : ∃ N, ∀ n, N ≤ n → f (macroexpand mt n) (.cons (.sym x) t) k = some (e1, k1))
    (hne : e1 ≠ .cons (.sym x) t) (hr : Runs mt e1 k1 d k') : Runs mt (.cons (.sym x) t) k d k' := by
  obtain ⟨N1, h1⟩ := hf
  obtain ⟨N2, h2⟩ := hr
  refine ⟨N1 + N2 + 1, fun n hn => ?_⟩
  obtain ⟨m, rfl⟩ : ∃ m, n = m + 1 := ⟨n - 1, by omega⟩
  rw [expandBoot, if_neg hp.protect, if_neg hp.lambda, if_neg hp.quote]
  simp only [bind, StateT.bind, hm, h1 m (by omega), Option.bind_some, if_neg hne]
  exact h2 m (by omega)

theorem runs_macro_same {x : Sym} {f : MacroFn} {es ds : List Datum} {k k' : Nat} (hp : Plain mt (.sym x))
    (hm : mt.fn x = some f)
    (hf : ∃ N, ∀ n, N ≤ n → f (macroexpand mt n) (.list (.sym x :: es)) k = some (.list (.sym x :: es), k))
    (hr : RunsList mt (.sym x :: es) k ds k') : Runs mt (.list (.sym x :: es)) k (.list ds) k' := by
  obtain ⟨N1, h1⟩ := hf
  obtain ⟨N2, h2⟩ := mapM_runs hr
  refine ⟨N1 + N2 + 1, fun n hn => ?_⟩
  obtain ⟨m, rfl⟩ : ∃ m, n = m + 1 := ⟨n - 1, by omega⟩
  have h1 := h1 m (by omega)
  have h2 := h2 m (by omega)
  simp only [Datum.list] at h1 h2 ⊢
  rw [expandBoot, if_neg hp.protect, if_neg hp.lambda, if_neg hp.quote]
  simp only [bind, StateT.bind, hm, h1, Option.bind_some, if_true]
  exact h2

theorem runs_lambda {ps b d : Datum} {k k' : Nat} (hp : mt.protect ≠ .named "lambda") (hr : Runs mt b k d k') :
    Runs mt (.list [kw "lambda", ps, b]) k (.list [kw "lambda", ps, d]) k' := by
  obtain ⟨N, hN⟩ := hr
  refine ⟨N + 1, fun n hn => ?_⟩
  obtain ⟨m, rfl⟩ : ∃ m, n = m + 1 := ⟨n - 1, by omega⟩
  simp only [Datum.list]
  rw [expandBoot, if_neg (by simpa [kw] using Ne.symm hp), if_pos rfl]
  simp [bind, StateT.bind, car, cadr, cdr, liftM, monadLift, MonadLift.monadLift, StateT.lift, hN m (by omega), pure,
    StateT.pure, Datum.list]

theorem runs_quote {t : Datum} {k : Nat} (hp : mt.protect ≠ .named "quote") :
    Runs mt (.cons (kw "quote") t) k (.cons (kw "quote") t) k := by
  refine ⟨1, fun n hn => ?_⟩
  obtain ⟨m, rfl⟩ : ∃ m, n = m + 1 := ⟨n - 1, by omega⟩
  rw [expandBoot, if_neg (by simpa [kw] using Ne.symm hp), if_neg (by simp [kw]), if_pos rfl]
  rfl

theorem Std.plain (hs : Std mt) {s : String} (h1 : s ≠ "lambda") (h2 : s ≠ "quote") : Plain mt (kw s) where
  protect := by rw [hs.protect]; simp
  lambda := by simpa [kw] using h1
  quote := by simpa [kw] using h2

/-! ### core forms -/

theorem not_protect (hs : Std mt) {k : Nat} (hk : 1 ≤ k) : (Sym.gen k) ≠ mt.protect := by
  rw [hs.protect]; intro h; cases h; omega

theorem turns_lit (c : Const) (k : Nat) : Turns mt c.datum k (.lit c) k where
  run := runs_atom (by cases c <;> simp [Const.datum])
  le := Nat.le_refl k
  ok := trivial

theorem turns_quote (hs : Std mt) (d : Datum) (k : Nat) : Turns mt (.list [kw "quote", d]) k (.quote d) k where
  run := runs_quote (by rw [hs.protect]; simp)
  le := Nat.le_refl k
  ok := trivial

theorem turns_var {x : Sym} {k : Nat} : Turns mt (.sym x) k (.var x) k where
  run := runs_sym
  le := Nat.le_refl k
  ok := trivial

theorem turns_lam (hs : Std mt) {ps : List Sym} {b : Datum} {k k' : Nat} {c : Core} (h : Turns mt b k c k') :
    Turns mt (.list [kw "lambda", .list (ps.map .sym), b]) k (.lam ps c) k' where
  run := runs_lambda (by rw [hs.protect]; simp) h.run
  le := h.le
  ok := h.ok

theorem turns_ite (hs : Std mt) {a b c : Datum} {k k1 k2 k3 : Nat} {ca cb cc : Core} (ha : Turns mt a k ca k1)
    (hb : Turns mt b k1 cb k2) (hc : Turns mt c k2 cc k3) :
    Turns mt (.list [kw "if", a, b, c]) k (.ite ca cb cc) k3 where
  run := runs_list (hs.plain (by decide) (by decide)) (by intro x hx; cases hx; exact hs.core _ (by simp))
    (.cons runs_sym (.cons ha.run (.cons hb.run (.cons hc.run .nil))))
  le := Nat.le_trans ha.le (Nat.le_trans hb.le hc.le)
  ok := ⟨ha.ok, hb.ok, hc.ok⟩

theorem turns_seq (hs : Std mt) {a b : Datum} {k k1 k2 : Nat} {ca cb : Core} (ha : Turns mt a k ca k1)
    (hb : Turns mt b k1 cb k2) :
    Turns mt (.list [kw "do", a, b]) k (.seq ca cb) k2 where
  run := runs_list (hs.plain (by decide) (by decide)) (by intro x hx; cases hx; exact hs.core _ (by simp))
    (.cons runs_sym (.cons ha.run (.cons hb.run .nil)))
  le := Nat.le_trans ha.le hb.le
  ok := ⟨ha.ok, hb.ok⟩

theorem turns_bind (hs : Std mt) {x : Sym} {e b : Datum} {k k1 k2 : Nat} {ce cb : Core} (he : Turns mt e k ce k1)
    (hb : Turns mt b k1 cb k2) :
    Turns mt (.list [kw "let", .sym x, e, b]) k (.bind x ce cb) k2 where
  run := runs_macro_same (hs.plain (by decide) (by decide)) (hs.std "let" _ rfl)
    ⟨0, fun n _ => by simp [Datum.list, cdr, rewriteLet, liftM, monadLift, MonadLift.monadLift, StateT.lift]⟩
    (.cons runs_sym (.cons runs_sym (.cons he.run (.cons hb.run .nil))))
  le := Nat.le_trans he.le hb.le
  ok := ⟨he.ok, hb.ok⟩

/-- forms expanded one after the other -/
inductive TurnsList (mt : Macros) : List Datum → Nat → List Core → Nat → Prop where
  | nil {k} : TurnsList mt [] k [] k
  | cons {e k c k1 es cs k2} : Turns mt e k c k1 → TurnsList mt es k1 cs k2 →
      TurnsList mt (e :: es) k (c :: cs) k2

theorem TurnsList.runs {es : List Datum} {k : Nat} {cs : List Core} {k' : Nat} (h : TurnsList mt es k cs k') :
    RunsList mt es k (Core.forms cs) k' := by
  induction h with
  | nil => exact .nil
  | cons h1 _ ih => exact .cons h1.run ih

theorem TurnsList.le {es : List Datum} {k : Nat} {cs : List Core} {k' : Nat} (h : TurnsList mt es k cs k') :
    k ≤ k' := by
  induction h with
  | nil => exact Nat.le_refl _
  | cons h1 _ ih => exact Nat.le_trans h1.le ih

theorem TurnsList.ok {es : List Datum} {k : Nat} {cs : List Core} {k' : Nat} (h : TurnsList mt es k cs k') :
    okCores (special mt) cs := by
  induction h with
  | nil => trivial
  | cons h1 _ ih => exact ⟨h1.ok, ih⟩

theorem turns_app_sym (hs : Std mt) {x : Sym} {es : List Datum} {k k' : Nat} {cs : List Core}
    (hx : ¬ special mt x) (h : TurnsList mt es k cs k') :
    Turns mt (.list (.sym x :: es)) k (.app (.var x) cs) k' where
  run := runs_list ⟨by intro e; cases e; exact hx (.inr (.inr rfl)),
      by intro e; cases e; exact hx (.inl (by simp)), by intro e; cases e; exact hx (.inl (by simp))⟩
    (by intro y hy; cases hy
        cases hm : mt.fn x with
        | none => rfl
        | some f => exact absurd (.inr (.inl (by simp [hm]))) hx)
    (.cons runs_sym h.runs)
  le := h.le
  ok := ⟨by intro y hy; cases hy; exact hx, trivial, h.ok⟩

theorem not_special (hs : Std mt) {s : String}
    (hm : s ∈ ["cons", "cons?", "car", "cdr", "=", "error"]) : ¬ special mt (.named s) := by
  intro h
  rcases h with h | h | h
  · simp at hm h
    rcases hm with rfl | rfl | rfl | rfl | rfl | rfl <;> simp at h
  · rw [hs.core s (by simp at hm ⊢; rcases hm with h | h | h | h | h | h <;> simp [h])] at h
    simp at h
  · rw [hs.protect] at h; cases h

theorem not_special_gen (hs : Std mt) {n : Nat} (hn : 1 ≤ n) : ¬ special mt (.gen n) := by
  intro h
  rcases h with h | h | h
  · simp at h
  · rw [hs.gen] at h; simp at h
  · exact not_protect hs hn h

theorem form_sym {c : Core} {x : Sym} (h : c.form = .sym x) : c = .var x := by
  cases c with
  | var y => simp [Core.form] at h; rw [h]
  | lit c => cases c <;> simp [Core.form, Const.datum] at h
  | _ => simp [Core.form, Datum.list] at h

mutual
/-- a form that is expanded stays as it is -/
theorem turns_self (hs : Std mt) : ∀ (c : Core) (k : Nat), okCore (special mt) c → Turns mt c.form k c k
  | .lit c, k, _ => turns_lit c k
  | .quote d, k, _ => turns_quote hs d k
  | .var x, k, _ => turns_var
  | .lam ps b, k, h => turns_lam hs (turns_self hs b k h)
  | .ite a b c, k, h => turns_ite hs (turns_self hs a k h.1) (turns_self hs b k h.2.1) (turns_self hs c k h.2.2)
  | .seq a b, k, h => turns_seq hs (turns_self hs a k h.1) (turns_self hs b k h.2)
  | .bind x e b, k, h => turns_bind hs (turns_self hs e k h.1) (turns_self hs b k h.2)
  | .app f args, k, h =>
    { run := runs_list ⟨by intro e; exact h.1 _ (form_sym e) (.inr (.inr rfl)),
          by intro e; exact h.1 _ (form_sym e) (.inl (by simp)), by intro e; exact h.1 _ (form_sym e) (.inl (by simp))⟩
        (by intro x hx
            cases hm : mt.fn x with
            | none => rfl
            | some g => exact absurd (.inr (.inl (by simp [hm]))) (h.1 x (form_sym hx)))
        (.cons (turns_self hs f k h.2.1).run (turnsList_self hs args k h.2.2).runs)
      le := Nat.le_refl k
      ok := h }
theorem turnsList_self (hs : Std mt) : ∀ (cs : List Core) (k : Nat), okCores (special mt) cs →
    TurnsList mt (Core.forms cs) k cs k
  | [], _, _ => .nil
  | c :: r, k, h => .cons (turns_self hs c k h.1) (turnsList_self hs r k h.2)
end

/-- a macro of init.cora that uses neither the counter nor the expander -/
theorem turns_std {s : String} (hs : Std mt) (h1 : s ≠ "lambda") (h2 : s ≠ "quote") {g : Datum → Option Datum}
    (hg : stdMacro s = some fun _ e => liftM (g e)) {t e1 : Datum} {k k' : Nat} {c : Core}
    (he : g (.cons (kw s) t) = some e1) (hne : e1 ≠ .cons (kw s) t) (hr : Turns mt e1 k c k') :
    Turns mt (.cons (kw s) t) k c k' where
  run := runs_macro (hs.plain h1 h2) (hs.std s _ hg)
    ⟨0, fun n _ => by simp [he, liftM, monadLift, MonadLift.monadLift, StateT.lift]⟩ hne hr.run
  le := hr.le
  ok := hr.ok

end Cora.Macro
