import Verif.Model.Shift
import Verif.Props.Monad
import Verif.Props.MacroBase
import Verif.Props.Macro
/-
C110: `shift` takes the rest of the computation, up to `reset`.
-/
open Spec.Lang
namespace Cora.Macro
open Monad
variable {mt : Macros} {W : Type} {E : Ext W}

/-- `shift` is the macro of the library -/
def HasShift (mt : Macros) : Prop := mt.fn (.named "shift") = some fun _ e => liftM (shiftMacro e)

theorem runs_lambda_rest {ps b d r : Datum} {k k' : Nat} (hp : mt.protect ≠ .named "lambda") (hr : Runs mt b k d k') :
    Runs mt (.cons (kw "lambda") (.cons ps (.cons b r))) k (.list [kw "lambda", ps, d]) k' := by
  obtain ⟨N, hN⟩ := hr
  refine ⟨N + 1, fun n hn => ?_⟩
  obtain ⟨m, rfl⟩ : ∃ m, n = m + 1 := ⟨n - 1, by omega⟩
  rw [expandBoot, if_neg (by simpa [kw] using Ne.symm hp), if_pos rfl]
  simp [bind, StateT.bind, car, cadr, cdr, liftM, monadLift, MonadLift.monadLift, StateT.lift, hN m (by omega), pure,
    StateT.pure, Datum.list]

theorem turns_shift (hs : Std mt) (hm : HasShift mt) {x : Sym} {e : Datum} {c : Core} {k k' : Nat} (h : Turns mt e k c k') (r : List Datum) :
    Turns mt (.list (kw "shift" :: .sym x :: e :: r)) k (.lam [x] c) k' where
  run := by
    refine runs_macro (x := .named "shift") (e1 := .cons (kw "lambda") (.cons (.list [.sym x]) (.list (e :: r)))) (k1 := k)
      ⟨by rw [hs.protect]; simp, by simp, by simp⟩ hm ⟨0, fun n _ => ?_⟩ (by simp [kw]) ?_
    · simp [shiftMacro, cadr, cddr, cdr, car, liftM, monadLift, MonadLift.monadLift, StateT.lift, Datum.list]
    · simpa [Core.form, Datum.list] using runs_lambda_rest (r := .list r) (by rw [hs.protect]; simp) h.run
  le := h.le
  ok := h.ok

/-- C110 (a), for a single expression (the full claim has any number: (b)). `(shift x e)`, for every variable `x` and every expression `e`, is expanded to a core form `s`. Evaluating `s`, binding it
to any continuation `f` with `cont-bind` and running this with `reset` is evaluating `e` with `x` bound to the rest of the computation: a
function that, called with any value `a` at any time, runs `f a` to its end as `reset` does. So `e` decides whether the rest is run
never, once or several times, and what `e` gives is the result of the `reset`. -/
theorem C110_shift_partial (hs : Std mt) (hm : HasShift mt) {x : Sym} {e : Datum} {c : Core} {k k' : Nat} (h : Turns mt e k c k') :
    ∃ s, Turns mt (.list [kw "shift", .sym x, e]) k s k' ∧
      ∀ {W : Type} (E : Ext W) (f : Val), ∃ rest,
        (∀ w a r w', Apply E w rest [a] r w' ↔ ∃ m w1, Apply E w f [a] m w1 ∧ Apply E w1 m [Monad.id] r w') ∧
        ∀ env w, Loaded w → ∀ r w',
          (∃ g w1 m w2, Eval E env w s g w1 ∧ Apply E w1 contBind [g, f] m w2 ∧ Apply E w2 reset [m] r w') ↔
            Eval E ((x, rest) :: env) w c r w' := by
  refine ⟨.lam [x] c, turns_shift hs hm h [], fun E f => ⟨contC f Monad.id, fun w a r w' => ?_, fun env w hw r w' => ?_⟩⟩
  · rw [contC_apply, apply_append1 (by simp)]
  · have key : (∃ g w1 m w2, Eval E env w (.lam [x] c) g w1 ∧ Apply E w1 contBind [g, f] m w2 ∧ Apply E w2 reset [m] r w') ↔
        Apply E w (.clo [x] c (capture (Core.lam [x] c).fv env)) [contC f Monad.id] r w' := by
      constructor
      · rintro ⟨g, w1, m, w2, h1, h2, h3⟩
        obtain ⟨rfl, rfl⟩ := eval_lam.1 h1
        obtain ⟨rfl, rfl⟩ := contBind_apply.1 h2
        exact bindC_apply.1 ((C54_reset hw _ _ _).1.1 h3)
      · intro h3
        exact ⟨_, _, _, _, eval_lam.2 ⟨rfl, rfl⟩, contBind_apply.2 ⟨rfl, rfl⟩, (C54_reset hw _ _ _).1.2 (bindC_apply.2 h3)⟩
    rw [key, apply_clo_exact rfl]
    refine eval_congr fun y hy => ?_
    by_cases hx : y = x
    · subst hx; simp [find]
    · have hx' : ¬ x = y := fun h => hx h.symm
      simp [find, hx', hx, find_capture, Core.fv, hy]

/-- C110 (b), where the code is wrong. The macro takes any number of expressions after the variable, like the body of a sequence, but all
but the first are dropped: whatever they are, `(shift x e e2 … en)` is expanded to what `(shift x e)` is. The same holds of
`(lambda (x1 … xm) e e2 … en)`. -/
theorem C110_body_wrong (hs : Std mt) (hm : HasShift mt) {e : Datum} {c : Core} {k k' : Nat} (h : Turns mt e k c k') (more : List Datum) :
    (∀ x, ∃ s, Turns mt (.list [kw "shift", .sym x, e]) k s k' ∧ Turns mt (.list (kw "shift" :: .sym x :: e :: more)) k s k') ∧
    ∀ xs : List Sym, ∃ s, Turns mt (.list [kw "lambda", .list (xs.map .sym), e]) k s k' ∧
      Turns mt (.list (kw "lambda" :: .list (xs.map .sym) :: e :: more)) k s k' := by
  refine ⟨fun x => ⟨_, turns_shift hs hm h [], turns_shift hs hm h more⟩, fun xs => ⟨_, turns_lam hs h, ?_, h.le, h.ok⟩⟩
  exact runs_lambda_rest (r := .list more) (by rw [hs.protect]; simp) h.run

/-! ### a case -/

def shiftMacros : Macros :=
  { initMacros with fn := fun x => if x = .named "shift" then some fun _ e => liftM (shiftMacro e) else initMacros.fn x }

theorem shiftMacros_std : Std shiftMacros where
  std := by
    intro s f h
    have : s ≠ "shift" := by rintro rfl; cases h
    simp only [shiftMacros, Sym.named.injEq, this, if_false]
    exact initMacros_std.std s f h
  core := by
    intro s hs
    have : s ≠ "shift" := by rintro rfl; simp at hs
    simp only [shiftMacros, Sym.named.injEq, this, if_false]
    exact initMacros_std.core s hs
  gen := fun n => by simp only [shiftMacros, reduceCtorEq, if_false]; exact initMacros_std.gen n
  protect := rfl

theorem shiftMacros_has : HasShift shiftMacros := by simp [HasShift, shiftMacros]

/-- `(k (k 5))` -/
def twice : Datum := .list [kw "k", .list [kw "k", .int 5]]

/-- `(lambda (v) (cont-return (cons 1 v)))`, with the function of the library in its place -/
def addOne : Val := .clo [.named "v"] (.app (.var (.named "ret")) [.app (.var (.named "cons")) [.lit (.int 1), .var (.named "v")]])
  [(.named "ret", contReturn)]

/-- a world with the library -/
def loaded : World Unit :=
  ⟨fun x => if x = .named "cora/lib/monad#run-cc" then some runCC else if x = .named "cora/lib/monad#id" then some Monad.id else none, ()⟩

theorem turns_twice (k : Nat) : Turns shiftMacros twice k
    (.app (.var (.named "k")) [.app (.var (.named "k")) [.lit (.int 5)]]) k := by
  have hk : ¬ special shiftMacros (.named "k") := by
    rintro (h | h | h)
    · simp at h
    · simp [shiftMacros, initMacros, stdMacro] at h
    · rw [shiftMacros_std.protect] at h; cases h
  exact turns_app_sym shiftMacros_std hk (.cons (turns_app_sym shiftMacros_std hk (.cons (turns_lit (.int 5) k) .nil)) .nil)

/-- `(reset (cont-bind (shift k (k (k 5))) (lambda (v) (cont-return (cons 1 v)))))` is `(1 1 . 5)` -/
example : ∃ s, Turns shiftMacros (.list [kw "shift", kw "k", twice]) 1 s 1 ∧
    ∃ g w1 m w2, Eval (⟨fun _ _ _ => none, fun _ _ _ => none⟩ : Ext Unit) [] loaded s g w1 ∧
      Apply ⟨fun _ _ _ => none, fun _ _ _ => none⟩ w1 contBind [g, addOne] m w2 ∧
      Apply ⟨fun _ _ _ => none, fun _ _ _ => none⟩ w2 reset [m] (.cons (.int 1) (.cons (.int 1) (.int 5))) loaded := by
  obtain ⟨s, h, hr⟩ := C110_shift_partial (x := .named "k") shiftMacros_std shiftMacros_has (turns_twice 1)
  obtain ⟨rest, h1, h2⟩ := hr (⟨fun _ _ _ => none, fun _ _ _ => none⟩ : Ext Unit) addOne
  refine ⟨s, h, (h2 [] loaded ⟨by simp [loaded], by simp [loaded]⟩ _ _).2 ?_⟩
  have once : ∀ a, Apply (⟨fun _ _ _ => none, fun _ _ _ => none⟩ : Ext Unit) loaded rest [a] (.cons (.int 1) a) loaded := by
    intro a
    refine (h1 _ _ _ _).2 ⟨retC (.cons (.int 1) a), loaded, applyF_sound 10 rfl, applyF_sound 10 rfl⟩
  have hk : ∀ env : Env, Eval (⟨fun _ _ _ => none, fun _ _ _ => none⟩ : Ext Unit) ((.named "k", rest) :: env) loaded (.var (.named "k")) rest loaded :=
    fun env => .local _ _ _ _ (by simp [find])
  have hp : ∀ env : Env, (Core.var (.named "k")).primOf ((.named "k", rest) :: env) = none := fun env => primOf_local (g := rest) (by simp [find])
  exact .app _ _ _ _ _ _ _ _ _ _ (hp _) (hk _) (.cons _ _ _ _ _ _ _ _ (.app _ _ _ _ _ _ _ _ _ _ (hp _) (hk _)
    (.cons _ _ _ _ _ _ _ _ (.lit ..) (.nil ..)) (once _)) (.nil ..)) (once _)

end Cora.Macro
