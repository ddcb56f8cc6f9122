import Verif.Props.Quasi
import Verif.Spec.Fold
/-
C107: `(fold-apply f e1 … en)` is `(f e1 (f e2 (… (f en-1 en))))`.
-/
open Spec.Lang
namespace Cora.Macro
variable {mt : Macros} {K : Nat} {W : Type} {E : Ext W} {env : Env}

/-- the nested calls -/
def foldForm (f : Sym) : Datum → Datum → List Datum → Datum
  | a, b, [] => .list [.sym f, a, b]
  | a, b, c :: r => .list [.sym f, a, foldForm f b c r]

/-- the same as core forms -/
def foldCore (f : Sym) : Core → Core → List Core → Core
  | a, b, [] => .app (.var f) [a, b]
  | a, b, c :: r => .app (.var f) [a, foldCore f b c r]

theorem rewrite_fold (f : Sym) : ∀ (a b : Datum) (r : List Datum),
    rewriteFoldApply (.sym f) (.list (a :: b :: r)) = some (foldForm f a b r)
  | a, b, [] => rfl
  | a, b, c :: r => by
    have h := rewrite_fold f b c r
    simp only [Datum.list] at h ⊢
    rw [rewriteFoldApply]
    · rw [h]; rfl
    · simp

theorem foldForm_head (f : Sym) : ∀ (a b : Datum) (r : List Datum), ∃ t, foldForm f a b r = .cons (.sym f) t
  | _, _, [] => ⟨_, rfl⟩
  | _, _, _ :: _ => ⟨_, rfl⟩

theorem fold_turns (hs : Std mt) {f : Sym} (hf : ¬ special mt f) : ∀ (r : List Datum) (a b : Datum)
    (_ : ∀ e ∈ a :: b :: r, Expandable mt K e) (k : Nat), K ≤ k →
    ∃ ca cb cr k', Turns mt (foldForm f a b r) k (foldCore f ca cb cr) k' ∧ Expansions mt K (a :: b :: r) (ca :: cb :: cr) ∧
      (∀ c ∈ ca :: cb :: cr, Old K c)
  | [], a, b, h, k, hk => by
    obtain ⟨c1, k1, t1, o1⟩ := h a (by simp) k hk
    obtain ⟨c2, k2, t2, o2⟩ := h b (by simp) k1 (Nat.le_trans hk t1.le)
    refine ⟨c1, c2, [], k2, turns_app_sym hs hf (.cons t1 (.cons t2 .nil)),
      .cons ⟨k, k1, hk, t1, o1⟩ (.cons ⟨k1, k2, Nat.le_trans hk t1.le, t2, o2⟩ .nil), ?_⟩
    intro c hc
    simp at hc
    rcases hc with rfl | rfl
    · exact o1
    · exact o2
  | x :: r, a, b, h, k, hk => by
    obtain ⟨c1, k1, t1, o1⟩ := h a (by simp) k hk
    obtain ⟨c2, c3, cr, k2, t2, x2, o2⟩ := fold_turns hs hf r b x (fun e he => h e (by simp at he ⊢; grind)) k1 (Nat.le_trans hk t1.le)
    refine ⟨c1, c2, c3 :: cr, k2, turns_app_sym hs hf (.cons t1 (.cons t2 .nil)), .cons ⟨k, k1, hk, t1, o1⟩ x2, ?_⟩
    intro c hc
    rcases List.mem_cons.1 hc with rfl | hc
    · exact o1
    · exact o2 c hc

theorem old_app2 {f : Sym} (hf : ∀ n, K ≤ n → f ≠ .gen n) {a b : Core} (ha : Old K a) (hb : Old K b) :
    Old K (.app (.var f) [a, b]) := by
  intro n hn hm
  simp only [Core.fv, Core.fvs, List.mem_append, List.mem_singleton, List.append_nil] at hm
  rcases hm with hm | hm | hm
  · exact hf n hn hm.symm
  · exact ha n hn hm
  · exact hb n hn hm

theorem old_fold {f : Sym} (hf : ∀ n, K ≤ n → f ≠ .gen n) : ∀ (r : List Core) (a b : Core), (∀ c ∈ a :: b :: r, Old K c) →
    Old K (foldCore f a b r)
  | [], a, b, h => old_app2 hf (h a (by simp)) (h b (by simp))
  | c :: r, a, b, h => old_app2 hf (h a (by simp)) (old_fold hf r b c (fun e he => h e (by simp at he ⊢; grind)))

/-- `f` is the name of the function `g`: a local variable, a built-in function, or a global variable that evaluating the expressions
leaves as it is -/
inductive StandsFor (E : Ext W) (env : Env) (w : World W) (cs : List Core) (f : Sym) (g : Val) : Prop where
  | var : find f env = some g → StandsFor E env w cs f g
  | builtin (p) : find f env = none → f = .named p → (primArity p).isSome → g = .prim p → StandsFor E env w cs f g
  | global : find f env = none → (∀ p, f = .named p → primArity p = none) → w.globals f = some g →
      (∀ e ∈ cs, ∀ w v w', Eval E env w e v w' → w'.globals f = w.globals f) → StandsFor E env w cs f g

theorem StandsFor.step {w : World W} {c : Core} {cs : List Core} {f : Sym} {g : Val} (h : StandsFor E env w (c :: cs) f g) {v : Val}
    {w' : World W} (he : Eval E env w c v w') : StandsFor E env w' cs f g := by
  cases h with
  | var h => exact .var h
  | builtin p h1 h2 h3 h4 => exact .builtin p h1 h2 h3 h4
  | global h1 h2 h3 h4 => exact .global h1 h2 (by rw [h4 c (by simp) _ _ _ he, h3]) fun e he => h4 e (by simp [he])

theorem evalArgs2 {a b : Core} {w w' : World W} {vs : List Val} : EvalArgs E env w [a, b] vs w' ↔
    ∃ x y w1, Eval E env w a x w1 ∧ Eval E env w1 b y w' ∧ vs = [x, y] := by
  constructor
  · intro h
    obtain ⟨x, xs, w2, rfl, hx, h1⟩ := evalArgs_cons.1 h
    obtain ⟨y, ys, w3, rfl, hy, h1⟩ := evalArgs_cons.1 h1
    obtain ⟨rfl, rfl⟩ := evalArgs_nil.1 h1
    exact ⟨x, y, w2, hx, hy, rfl⟩
  · rintro ⟨x, y, w1, hx, hy, rfl⟩
    exact evalArgs_cons.2 ⟨x, [y], w1, rfl, hx, evalArgs_cons.2 ⟨y, [], w', rfl, hy, evalArgs_nil.2 ⟨rfl, rfl⟩⟩⟩

theorem eval_call {f : Sym} {g : Val} {cs : List Core} {args : List Core} {w w' : World W} (hg : StandsFor E env w cs f g) {v : Val} :
    Eval E env w (.app (.var f) args) v w' ↔ ∃ vs w1, EvalArgs E env w args vs w1 ∧ Apply E w1 g vs v w' := by
  cases hg with
  | var hg =>
    have hp : (Core.var f).primOf env = none := by cases f <;> simp [Core.primOf, hg]
    constructor
    · intro h
      cases h with
      | prim _ _ _ _ q vs _ w1 _ h1 h2 h3 => rw [hp] at h1; cases h1
      | app _ _ _ _ g' vs _ w1 w2 _ h1 h2 h3 h4 =>
        cases h2 with
        | «local» _ _ _ _ h5 => rw [hg] at h5; cases h5; exact ⟨vs, w2, h3, h4⟩
        | global _ _ _ _ h5 => rw [hg] at h5; cases h5
    · rintro ⟨vs, w1, h1, h2⟩
      exact .app _ _ _ _ g vs _ w w1 _ hp (.local _ _ _ _ hg) h1 h2
  | builtin p hn hf hp hg =>
    subst hf hg
    have hq : (Core.var (.named p)).primOf env = some p := by simp [Core.primOf, hn, hp]
    constructor
    · intro h
      cases h with
      | prim _ _ _ _ q vs _ w1 _ h1 h2 h3 => rw [hq] at h1; cases h1; exact ⟨vs, w1, h2, h3⟩
      | app _ _ _ _ g' vs _ w1 w2 _ h1 h2 h3 h4 => rw [hq] at h1; cases h1
    · rintro ⟨vs, w1, h1, h2⟩
      exact .prim _ _ _ _ p vs _ w1 _ hq h1 h2
  | global hn hb hw _ =>
    have hp : (Core.var f).primOf env = none := by
      cases f with
      | named p => simp [Core.primOf, hb p rfl]
      | gen _ => simp [Core.primOf]
    constructor
    · intro h
      cases h with
      | prim _ _ _ _ q vs _ w1 _ h1 h2 h3 => rw [hp] at h1; cases h1
      | app _ _ _ _ g' vs _ w1 w2 _ h1 h2 h3 h4 =>
        cases h2 with
        | «local» _ _ _ _ h5 => rw [hn] at h5; cases h5
        | global _ _ _ _ h5 h6 => rw [hw] at h6; cases h6; exact ⟨vs, w2, h3, h4⟩
    · rintro ⟨vs, w1, h1, h2⟩
      exact .app _ _ _ _ g vs _ w w1 _ hp (.global _ _ _ _ hn hw) h1 h2

theorem eval_fold {f : Sym} {g : Val} : ∀ (r : List Core) (a b : Core) (w : World W) (v : Val) (w' : World W),
    StandsFor E env w (a :: b :: r) f g → (Eval E env w (foldCore f a b r) v w' ↔
      ∃ vs w1, EvalArgs E env w (a :: b :: r) vs w1 ∧ FoldRight (fun w x y v w' => Apply E w g [x, y] v w') vs w1 v w')
  | [], a, b, w, v, w', hg => by
    rw [foldCore, eval_call hg]
    constructor
    · rintro ⟨vs, w1, h1, h2⟩
      obtain ⟨x, y, w2, hx, hy, rfl⟩ := evalArgs2.1 h1
      exact ⟨_, w1, h1, .two _ _ _ _ _ h2⟩
    · rintro ⟨vs, w1, h1, h2⟩
      refine ⟨vs, w1, h1, ?_⟩
      obtain ⟨x, y, w2, hx, hy, rfl⟩ := evalArgs2.1 h1
      cases h2 with
      | two _ _ _ _ _ h => exact h
      | more _ _ _ _ _ _ _ _ h _ => cases h
  | c :: r, a, b, w, v, w', hg => by
    rw [foldCore, eval_call hg]
    constructor
    · rintro ⟨vs, w1, h1, h2⟩
      obtain ⟨x, u, w2, hx, hu, rfl⟩ := evalArgs2.1 h1
      obtain ⟨vs, w3, h3, h4⟩ := (eval_fold r b c w2 u w1 (hg.step hx)).1 hu
      obtain ⟨y, ys, w4, rfl, hy, h5⟩ := evalArgs_cons.1 h3
      exact ⟨x :: y :: ys, w3, evalArgs_cons.2 ⟨_, _, w2, rfl, hx, h3⟩, .more _ _ _ _ _ _ _ _ h4 h2⟩
    · rintro ⟨vs, w1, h1, h2⟩
      obtain ⟨x, xs, w2, rfl, hx, h3⟩ := evalArgs_cons.1 h1
      obtain ⟨y, ys, w4, rfl, hy, h5⟩ := evalArgs_cons.1 h3
      obtain ⟨z, zs, w6, rfl, hz, h7⟩ := evalArgs_cons.1 h5
      cases h2 with
      | more _ _ _ _ u w5 _ _ h8 h9 =>
        exact ⟨[x, u], w5, evalArgs2.2 ⟨x, u, w2, hx, (eval_fold r b c w2 u w5 (hg.step hx)).2 ⟨_, w1, h3, h8⟩, rfl⟩, h9⟩

/-- `(fold-apply f e1 … en)` with `n ≥ 2` evaluates the expressions once each, from left to right, and then combines their values with the
function, from the right. `f` is the name of a function and no macro. -/
theorem C107_fold (hs : Std mt) {f : Sym} (hf : ¬ special mt f) (hK : ∀ n, K ≤ n → f ≠ .gen n) (es : List Datum) (hl : 2 ≤ es.length)
    (hes : ∀ e ∈ es, Expandable mt K e) (k : Nat) (hk : K ≤ k) :
    ∃ c k' cs, Turns mt (.cons (kw "fold-apply") (.cons (.sym f) (.list es))) k c k' ∧ Old K c ∧ Expansions mt K es cs ∧
      ∀ {W : Type} (E : Ext W) (env : Env) (g : Val) w v w', StandsFor E env w cs f g → (Eval E env w c v w' ↔
        ∃ vs w1, EvalArgs E env w cs vs w1 ∧ FoldRight (fun w x y v w' => Apply E w g [x, y] v w') vs w1 v w') := by
  match es, hl with
  | a :: b :: r, _ =>
    obtain ⟨ca, cb, cr, k', t, x, o⟩ := fold_turns hs hf r a b hes k hk
    refine ⟨foldCore f ca cb cr, k', ca :: cb :: cr,
      turns_std hs (by decide) (by decide) rfl (g := fun e => do rewriteFoldApply (← cadr e) (← cddr e)) ?_ ?_ t, old_fold hK cr ca cb o, x,
      fun E env g w v w' hg => eval_fold cr ca cb w v w' hg⟩
    · simp only [cadr, cddr, cdr, car, Option.bind_some, bind, rewrite_fold]
    · obtain ⟨t', ht⟩ := foldForm_head f a b r
      rw [ht]
      intro h
      injection h with h1 _
      injection h1 with h1
      subst h1
      exact hf (.inr (.inl (by rw [hs.std "fold-apply" _ rfl]; rfl)))

/-- with fewer than two expressions the program is refused: the expander stops with an error -/
theorem C107_few (hs : Std mt) (f : Datum) (es : List Datum) (hl : es.length < 2) (n k : Nat) :
    expandBoot mt n (.cons (kw "fold-apply") (.cons f (.list es))) k = none := by
  have hp := hs.plain (s := "fold-apply") (by decide) (by decide)
  cases n with
  | zero => rfl
  | succ n =>
    rw [expandBoot, if_neg hp.protect, if_neg hp.lambda, if_neg hp.quote]
    simp only [bind, StateT.bind, hs.std "fold-apply" _ rfl]
    match es, hl with
    | [], _ => simp [Datum.list, cadr, cddr, cdr, car, rewriteFoldApply, liftM, monadLift, MonadLift.monadLift, StateT.lift]
    | [a], _ => simp [Datum.list, cadr, cddr, cdr, car, rewriteFoldApply, liftM, monadLift, MonadLift.monadLift, StateT.lift]

/-- `(fold-apply cons (set (quote g) 1) x x)` -/
example := C107_fold (K := 1) initMacros_std (f := .named "cons") (not_special initMacros_std (by simp)) (by simp)
  [setG.form, kw "x", kw "x"] (by simp) (by simp; exact ⟨setG_expandable 1, x_expandable 1⟩) 1 (Nat.le_refl 1)
example (w : World Unit) (cs : List Core) : StandsFor noExt [(.named "x", .int 7)] w cs (.named "cons") (.prim "cons") :=
  .builtin "cons" rfl rfl rfl rfl
/-- the values `1 2 3` give `(1 2 . 3)`: from the right -/
example : FoldRight (fun w x y v w' => Apply noExt w (.prim "cons") [x, y] v w') [.int 1, .int 2, .int 3] noWorld
    (.cons (.int 1) (.cons (.int 2) (.int 3))) noWorld :=
  .more _ _ _ _ _ _ _ _ (.two _ _ _ _ _ (.prim _ _ _ _ _ rfl rfl)) (.prim _ _ _ _ _ rfl rfl)
/-- a global function, and expressions that do not touch it -/
example : StandsFor noExt [(.named "x", .int 7)] (noWorld.set (.named "f") (.native 3 2)) [.var (.named "x"), .lit (.int 1)] (.named "f")
    (.native 3 2) := by
  refine .global rfl (by intro p hp; cases hp; rfl) rfl ?_
  intro e he w v w' h
  simp at he
  rcases he with rfl | rfl
  · cases h <;> rfl
  · cases h; rfl
example := C107_few initMacros_std (kw "f") [kw "x"] (by simp) 10 1

end Cora.Macro
