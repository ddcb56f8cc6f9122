import Verif.Model.Monad
import Verif.Spec.Monad
import Verif.Lemmas.Curry
/-
C54: the monad laws.
-/
open Spec.Lang
namespace Cora.Monad
variable {W : Type} {E : Ext W}

theorem apply_append1 {w : World W} {f a : Val} {b : List Val} {r : Val} {w2 : World W} (hb : b ≠ []) :
    Apply E w f (a :: b) r w2 ↔ ∃ g w1, Apply E w f [a] g w1 ∧ Apply E w1 g b r w2 :=
  apply_append (a := [a]) (by simp) hb

theorem apply_append2 {w : World W} {f a a' : Val} {b : List Val} {r : Val} {w2 : World W} (hb : b ≠ []) :
    Apply E w f (a :: a' :: b) r w2 ↔ ∃ g w1, Apply E w f [a, a'] g w1 ∧ Apply E w1 g b r w2 :=
  apply_append (a := [a, a']) (by simp) hb

theorem primOf_local {env : Env} {f : Sym} {g : Val} (hf : find f env = some g) : (Core.var f).primOf env = none := by
  cases f <;> simp [Core.primOf, hf]

theorem call1 {env : Env} {w w' : World W} {f x : Sym} {g a r : Val} (hf : find f env = some g) (hx : find x env = some a) :
    Eval E env w (.app (.var f) [.var x]) r w' ↔ Apply E w g [a] r w' := by
  rw [eval_app (primOf_local hf)]
  simp only [evalArgs_cons, evalArgs_nil, eval_local hf, eval_local hx]
  constructor
  · rintro ⟨_, _, _, _, ⟨rfl, rfl⟩, ⟨_, _, _, rfl, ⟨rfl, rfl⟩, rfl, rfl⟩, h⟩
    exact h
  · intro h
    exact ⟨_, _, _, _, ⟨rfl, rfl⟩, ⟨_, _, _, rfl, ⟨rfl, rfl⟩, rfl, rfl⟩, h⟩

theorem call2 {env : Env} {w w' : World W} {f x y : Sym} {g a b r : Val} (hf : find f env = some g)
    (hx : find x env = some a) (hy : find y env = some b) :
    Eval E env w (.app (.var f) [.var x, .var y]) r w' ↔ Apply E w g [a, b] r w' := by
  rw [eval_app (primOf_local hf)]
  simp only [evalArgs_cons, evalArgs_nil, eval_local hf, eval_local hx, eval_local hy]
  constructor
  · rintro ⟨_, _, _, _, ⟨rfl, rfl⟩, ⟨_, _, _, rfl, ⟨rfl, rfl⟩, _, _, _, rfl, ⟨rfl, rfl⟩, rfl, rfl⟩, h⟩
    exact h
  · intro h
    exact ⟨_, _, _, _, ⟨rfl, rfl⟩, ⟨_, _, _, rfl, ⟨rfl, rfl⟩, _, _, _, rfl, ⟨rfl, rfl⟩, rfl, rfl⟩, h⟩

/-- a call whose only argument is a function -/
theorem callLam {env : Env} {w w' : World W} {f : Core} {ps : List Sym} {b : Core} {r : Val} (hf : f.primOf env = none) :
    Eval E env w (.app f [.lam ps b]) r w' ↔
      ∃ g w1, Eval E env w f g w1 ∧ Apply E w1 g [.clo ps b (capture (Core.lam ps b).fv env)] r w' := by
  rw [eval_app hf]
  simp only [evalArgs_cons, evalArgs_nil, eval_lam]
  constructor
  · rintro ⟨g, _, _, _, h1, ⟨_, _, _, rfl, ⟨rfl, rfl⟩, rfl, rfl⟩, h⟩
    exact ⟨_, _, h1, h⟩
  · rintro ⟨g, w1, h1, h⟩
    exact ⟨g, _, _, _, h1, ⟨_, _, _, rfl, ⟨rfl, rfl⟩, rfl, rfl⟩, h⟩

/-- `(state-return x)` -/
def retS (x : Val) : Val := .clo [n "s", n "k"] (.app (v "k") [v "s", v "x"]) [(n "x", x)]
/-- `(state-bind m f)` -/
def bindS (m f : Val) : Val := .clo [n "s"]
  (.app (.app (v "m") [v "s"]) [.lam [n "s1", n "v"] (.app (v "f") [v "v", v "s1"])]) [(n "m", m), (n "f", f)]
/-- the continuation it passes on -/
def contS (f : Val) : Val := .clo [n "s1", n "v"] (.app (v "f") [v "v", v "s1"]) [(n "f", f)]

theorem stateReturn_apply {w w' : World W} {x r : Val} : Apply E w stateReturn [x] r w' ↔ r = retS x ∧ w' = w := by
  rw [stateReturn, apply_clo_exact rfl, eval_lam]
  simp [retS, Core.fv, Core.fvs, capture, find, n]

theorem stateBind_apply {w w' : World W} {m f r : Val} : Apply E w stateBind [m, f] r w' ↔ r = bindS m f ∧ w' = w := by
  rw [stateBind, apply_clo_exact rfl, eval_lam]
  simp [bindS, Core.fv, Core.fvs, capture, find, n]

theorem retS_apply {w w' : World W} {x s k r : Val} : Apply E w (retS x) [s, k] r w' ↔ Apply E w k [s, x] r w' := by
  rw [retS, apply_clo_exact rfl, call2] <;> rfl

theorem contS_apply {w w' : World W} {f s a r : Val} : Apply E w (contS f) [s, a] r w' ↔ Apply E w f [a, s] r w' := by
  rw [contS, apply_clo_exact rfl, call2] <;> rfl

theorem bindS_apply1 {w w' : World W} {m f s r : Val} : Apply E w (bindS m f) [s] r w' ↔ Apply E w m [s, contS f] r w' := by
  rw [bindS, apply_clo_exact rfl, callLam rfl, apply_append1 (by simp)]
  have key : ∀ g (w1 : World W), Eval E ([(n "s", s)] ++ [(n "m", m), (n "f", f)]) w (.app (v "m") [v "s"]) g w1 ↔
      Apply E w m [s] g w1 := fun g w1 => call1 rfl rfl
  constructor
  · rintro ⟨g, w1, h1, h2⟩
    exact ⟨g, w1, (key g w1).1 h1, h2⟩
  · rintro ⟨g, w1, h1, h2⟩
    exact ⟨g, w1, (key g w1).2 h1, h2⟩

theorem bindS_apply {w w' : World W} {m f s k r : Val} : Apply E w (bindS m f) [s, k] r w' ↔
    ∃ g w1, Apply E w m [s, contS f] g w1 ∧ Apply E w1 g [k] r w' := by
  rw [apply_append1 (by simp)]
  simp only [bindS_apply1]

theorem bindS_action {m : Val} (hm : StateAction E m) (w : World W) (s : Val) :
    (∃ s1 a w1, (∀ k r w2, Apply E w m [s, k] r w2 ↔ Apply E w1 k [s1, a] r w2) ∧
      ∀ f k r w2, Apply E w (bindS m f) [s, k] r w2 ↔ Apply E w1 f [a, s1, k] r w2) ∨
    ((∀ k r w2, ¬ Apply E w m [s, k] r w2) ∧ ∀ f k r w2, ¬ Apply E w (bindS m f) [s, k] r w2) := by
  rcases hm w s with ⟨s1, a, w1, h⟩ | h
  · refine .inl ⟨s1, a, w1, h, fun f k r w2 => ?_⟩
    rw [bindS_apply, apply_append2 (by simp)]
    simp only [h, contS_apply]
  · refine .inr ⟨h, fun f k r w2 => ?_⟩
    rw [bindS_apply]
    rintro ⟨g, w1, h1, _⟩
    exact h _ _ _ h1

/-- **C54**, state monad, left identity: `(state-bind (state-return x) f)` is `(f x)` -/
theorem C54_state_left (x f : Val) : (∀ w : World W, Apply E w stateReturn [x] (retS x) w) ∧
    (∀ w : World W, Apply E w stateBind [retS x, f] (bindS (retS x) f) w) ∧
    ∀ s k, CallsSame E (bindS (retS x) f) [s, k] f [x, s, k] := by
  refine ⟨fun w => stateReturn_apply.2 ⟨rfl, rfl⟩, fun w => stateBind_apply.2 ⟨rfl, rfl⟩, fun s k w r w' => ?_⟩
  rw [bindS_apply, apply_append2 (by simp)]
  simp only [retS_apply, contS_apply]

/-- right identity: `(state-bind m state-return)` is `m` -/
theorem C54_state_right {m : Val} (hm : StateAction E m) : (∀ w : World W, Apply E w stateBind [m, stateReturn] (bindS m stateReturn) w) ∧
    ∀ s k, CallsSame E (bindS m stateReturn) [s, k] m [s, k] := by
  refine ⟨fun w => stateBind_apply.2 ⟨rfl, rfl⟩, fun s k w r w' => ?_⟩
  rcases bindS_action hm w s with ⟨s1, a, w1, h1, h2⟩ | ⟨h1, h2⟩
  · rw [h1, h2, apply_append1 (by simp)]
    simp only [stateReturn_apply]
    constructor
    · rintro ⟨_, _, ⟨rfl, rfl⟩, h⟩
      exact retS_apply.1 h
    · exact fun h => ⟨_, _, ⟨rfl, rfl⟩, retS_apply.2 h⟩
  · exact ⟨fun h => absurd h (h2 _ _ _ _), fun h => absurd h (h1 _ _ _)⟩

theorem kleisli_apply {b : Val → Val → Val} {bind : Val}
    (hb : ∀ (w w' : World W) m f r, Apply E w bind [m, f] r w' ↔ r = b m f ∧ w' = w) {w w' : World W} {f g x r : Val} :
    Apply E w (kleisli bind f g) [x] r w' ↔ ∃ m, Apply E w f [x] m w' ∧ r = b m g := by
  rw [kleisli, apply_clo_exact rfl, eval_app (by rfl)]
  have hx : find (.named "x") ([(.named "x", x)] ++ [(.named "bind", bind), (.named "f", f), (.named "g", g)]) = some x := rfl
  have hf : find (.named "f") ([(.named "x", x)] ++ [(.named "bind", bind), (.named "f", f), (.named "g", g)]) = some f := rfl
  have hg : find (.named "g") ([(.named "x", x)] ++ [(.named "bind", bind), (.named "f", f), (.named "g", g)]) = some g := rfl
  have hbi : find (.named "bind") ([(.named "x", x)] ++ [(.named "bind", bind), (.named "f", f), (.named "g", g)]) = some bind := rfl
  simp only [List.zip_cons_cons, List.zip_nil_right, List.reverse_cons, List.reverse_nil, List.nil_append,
    evalArgs_cons, evalArgs_nil, eval_local hbi, eval_local hg, call1 (E := E) hf hx]
  constructor
  · rintro ⟨_, _, _, _, ⟨rfl, rfl⟩, ⟨m, _, _, rfl, h1, _, _, _, rfl, ⟨rfl, rfl⟩, rfl, rfl⟩, h⟩
    obtain ⟨rfl, rfl⟩ := (hb _ _ _ _ _).1 h
    exact ⟨m, h1, rfl⟩
  · rintro ⟨m, h1, rfl⟩
    exact ⟨_, _, _, _, ⟨rfl, rfl⟩, ⟨m, _, _, rfl, h1, _, _, _, rfl, ⟨rfl, rfl⟩, rfl, rfl⟩, (hb _ _ _ _ _).2 ⟨rfl, rfl⟩⟩

/-- associativity: `(state-bind (state-bind m f) g)` is `(state-bind m (lambda (x) (state-bind (f x) g)))` -/
theorem C54_state_assoc {m : Val} (hm : StateAction E m) (f g : Val) :
    (∀ w : World W, Apply E w stateBind [m, f] (bindS m f) w) ∧
    (∀ w : World W, Apply E w stateBind [bindS m f, g] (bindS (bindS m f) g) w) ∧
    (∀ w : World W, Apply E w stateBind [m, kleisli stateBind f g] (bindS m (kleisli stateBind f g)) w) ∧
    ∀ s k, CallsSame E (bindS (bindS m f) g) [s, k] (bindS m (kleisli stateBind f g)) [s, k] := by
  refine ⟨fun w => stateBind_apply.2 ⟨rfl, rfl⟩, fun w => stateBind_apply.2 ⟨rfl, rfl⟩,
    fun w => stateBind_apply.2 ⟨rfl, rfl⟩, fun s k w r w' => ?_⟩
  rw [bindS_apply]
  rcases bindS_action hm w s with ⟨s1, a, w1, h1, h2⟩ | ⟨h1, h2⟩
  · simp only [h2]
    rw [apply_append1 (by simp)]
    simp only [kleisli_apply (E := E) (bind := stateBind) (b := bindS) (fun _ _ _ _ _ => stateBind_apply)]
    constructor
    · rintro ⟨g1, w2, h3, h4⟩
      obtain ⟨fa, w3, h5, h6⟩ := (apply_append1 (by simp)).1 h3
      exact ⟨_, w3, ⟨fa, h5, rfl⟩, bindS_apply.2 ⟨g1, w2, h6, h4⟩⟩
    · rintro ⟨_, w3, ⟨fa, h5, rfl⟩, h6⟩
      obtain ⟨g1, w2, h7, h8⟩ := bindS_apply.1 h6
      exact ⟨g1, w2, (apply_append1 (by simp)).2 ⟨fa, w3, h5, h7⟩, h8⟩
  · constructor
    · rintro ⟨g1, w2, h3, _⟩
      exact absurd h3 (h2 _ _ _ _)
    · exact fun h => absurd h (h2 _ _ _ _)

/-- `state-return` and `state-bind` make state actions -/
theorem C54_state_actions : (∀ x, StateAction E (retS x)) ∧
    ∀ m f, StateAction E m → ToState E f → StateAction E (bindS m f) := by
  refine ⟨fun x w s => .inl ⟨s, x, w, fun k r w2 => retS_apply⟩, fun m f hm hf w s => ?_⟩
  rcases bindS_action hm w s with ⟨s1, a, w1, h1, h2⟩ | ⟨h1, h2⟩
  · simp only [h2]
    rcases hf w1 a with ⟨fa, w2, h3, h4⟩ | h3
    · have key : ∀ k r w3, Apply E w1 f [a, s1, k] r w3 ↔ Apply E w2 fa [s1, k] r w3 := by
        intro k r w3
        rw [apply_append1 (by simp)]
        constructor
        · rintro ⟨g, w4, h5, h6⟩
          obtain ⟨rfl, rfl⟩ := apply_det h3 h5
          exact h6
        · exact fun h => ⟨fa, w2, h3, h⟩
      simp only [key]
      exact h4 w2 s1
    · refine .inr fun k r w2 h => ?_
      obtain ⟨g, w4, h5, _⟩ := (apply_append1 (by simp)).1 h
      exact h3 _ _ h5
  · exact .inr fun k r w2 => h2 _ _ _ _

/-- a function that does not call its continuation is no state action, and then the right identity fails: with
`m = (lambda (s k) 5)`, `(m s k)` is 5 and `((state-bind m state-return) s k)` is an error -/
theorem C54_state_right_needs_action (s k : Val) (w : World W) :
    let m := Val.clo [n "s", n "k"] (.lit (.int 5)) []
    Apply E w m [s, k] (.int 5) w ∧ ∀ r w', ¬ Apply E w (bindS m stateReturn) [s, k] r w' := by
  refine ⟨(apply_clo_exact rfl).2 (.lit ..), fun r w' h => ?_⟩
  obtain ⟨g, w1, h1, h2⟩ := bindS_apply.1 h
  obtain ⟨rfl, rfl⟩ := eval_lit.1 ((apply_clo_exact rfl).1 h1)
  cases h2 <;> simp_all [Val.arity, Const.datum, Datum.val]

/-! ### continuations -/

/-- `(cont-return x)` -/
def retC (x : Val) : Val := .clo [n "k"] (.app (v "k") [v "x"]) [(n "x", x)]
/-- `(cont-bind m f)` -/
def bindC (m f : Val) : Val := .clo [n "k"] (.app (v "m") [.lam [n "res"] (.app (v "f") [v "res", v "k"])])
  [(n "m", m), (n "f", f)]
/-- the continuation it passes on -/
def contC (f k : Val) : Val := .clo [n "res"] (.app (v "f") [v "res", v "k"]) [(n "f", f), (n "k", k)]

theorem contReturn_apply {w w' : World W} {x r : Val} : Apply E w contReturn [x] r w' ↔ r = retC x ∧ w' = w := by
  rw [contReturn, apply_clo_exact rfl, eval_lam]
  rfl

theorem contBind_apply {w w' : World W} {m f r : Val} : Apply E w contBind [m, f] r w' ↔ r = bindC m f ∧ w' = w := by
  rw [contBind, apply_clo_exact rfl, eval_lam]
  rfl

theorem retC_apply {w w' : World W} {x k r : Val} : Apply E w (retC x) [k] r w' ↔ Apply E w k [x] r w' := by
  rw [retC, apply_clo_exact rfl, call1] <;> rfl

theorem contC_apply {w w' : World W} {f k a r : Val} : Apply E w (contC f k) [a] r w' ↔ Apply E w f [a, k] r w' := by
  rw [contC, apply_clo_exact rfl, call2] <;> rfl

theorem bindC_apply {w w' : World W} {m f k r : Val} : Apply E w (bindC m f) [k] r w' ↔ Apply E w m [contC f k] r w' := by
  rw [bindC, apply_clo_exact rfl, callLam rfl]
  have key : ∀ g (w1 : World W), Eval E ([(n "k", k)] ++ [(n "m", m), (n "f", f)]) w (v "m") g w1 ↔ g = m ∧ w1 = w :=
    fun g w1 => eval_local rfl
  constructor
  · rintro ⟨g, w1, h1, h⟩
    obtain ⟨rfl, rfl⟩ := (key g w1).1 h1
    exact h
  · exact fun h => ⟨_, _, (key _ _).2 ⟨rfl, rfl⟩, h⟩

/-- **C54**, continuation monad, left identity -/
theorem C54_cont_left (x f : Val) : (∀ w : World W, Apply E w contReturn [x] (retC x) w) ∧
    (∀ w : World W, Apply E w contBind [retC x, f] (bindC (retC x) f) w) ∧
    ∀ k, CallsSame E (bindC (retC x) f) [k] f [x, k] := by
  refine ⟨fun w => contReturn_apply.2 ⟨rfl, rfl⟩, fun w => contBind_apply.2 ⟨rfl, rfl⟩, fun k w r w' => ?_⟩
  rw [bindC_apply, retC_apply, contC_apply]

/-- right identity -/
theorem C54_cont_right {m : Val} (hm : ContAction E m) : (∀ w : World W, Apply E w contBind [m, contReturn] (bindC m contReturn) w) ∧
    ∀ k, CallsSame E (bindC m contReturn) [k] m [k] := by
  refine ⟨fun w => contBind_apply.2 ⟨rfl, rfl⟩, fun k w r w' => ?_⟩
  rw [bindC_apply]
  refine hm _ _ (fun a w r w' => ?_) w r w'
  rw [contC_apply, apply_append1 (by simp)]
  simp only [contReturn_apply]
  constructor
  · rintro ⟨_, _, ⟨rfl, rfl⟩, h⟩
    exact retC_apply.1 h
  · exact fun h => ⟨_, _, ⟨rfl, rfl⟩, retC_apply.2 h⟩

/-- associativity -/
theorem C54_cont_assoc {m : Val} (hm : ContAction E m) (f g : Val) :
    (∀ w : World W, Apply E w contBind [m, f] (bindC m f) w) ∧
    (∀ w : World W, Apply E w contBind [bindC m f, g] (bindC (bindC m f) g) w) ∧
    (∀ w : World W, Apply E w contBind [m, kleisli contBind f g] (bindC m (kleisli contBind f g)) w) ∧
    ∀ k, CallsSame E (bindC (bindC m f) g) [k] (bindC m (kleisli contBind f g)) [k] := by
  refine ⟨fun w => contBind_apply.2 ⟨rfl, rfl⟩, fun w => contBind_apply.2 ⟨rfl, rfl⟩,
    fun w => contBind_apply.2 ⟨rfl, rfl⟩, fun k w r w' => ?_⟩
  rw [bindC_apply, bindC_apply, bindC_apply]
  refine hm _ _ (fun a w r w' => ?_) w r w'
  rw [contC_apply, contC_apply, apply_append1 (by simp), apply_append1 (by simp)]
  simp only [kleisli_apply (E := E) (bind := contBind) (b := bindC) (fun _ _ _ _ _ => contBind_apply)]
  constructor
  · rintro ⟨fa, w1, h1, h2⟩
    exact ⟨_, w1, ⟨fa, h1, rfl⟩, bindC_apply.2 h2⟩
  · rintro ⟨_, w1, ⟨fa, h1, rfl⟩, h2⟩
    exact ⟨fa, w1, h1, bindC_apply.1 h2⟩

/-- `cont-return` and `cont-bind` make actions -/
theorem C54_cont_actions : (∀ x, ContAction E (retC x)) ∧
    ∀ m f, ContAction E m → ToCont E f → ContAction E (bindC m f) := by
  refine ⟨fun x k k' h w r w' => ?_, fun m f hm hf k k' h w r w' => ?_⟩
  · rw [retC_apply, retC_apply]
    exact h x w r w'
  · rw [bindC_apply, bindC_apply]
    refine hm _ _ (fun a w r w' => ?_) w r w'
    rw [contC_apply, contC_apply, apply_append1 (by simp), apply_append1 (by simp)]
    constructor
    · rintro ⟨fa, w1, h1, h2⟩
      exact ⟨fa, w1, h1, (hf _ _ _ _ h1 k k' h _ _ _).1 h2⟩
    · rintro ⟨fa, w1, h1, h2⟩
      exact ⟨fa, w1, h1, (hf _ _ _ _ h1 k k' h _ _ _).2 h2⟩

/-- the global variables of the library are set -/
structure Loaded (w : World W) : Prop where
  runCC : w.globals (.named "cora/lib/monad#run-cc") = some runCC
  id : w.globals (.named "cora/lib/monad#id") = some Monad.id

/-- `reset` runs an action with the identity; `(reset (cont-return x))` is `x` -/
theorem C54_reset {w : World W} (hw : Loaded w) (m : Val) (r : Val) (w' : World W) :
    (Apply E w reset [m] r w' ↔ Apply E w m [Monad.id] r w') ∧ Apply E w reset [retC r] r w := by
  have key : ∀ m r w', Apply E w reset [m] r w' ↔ Apply E w m [Monad.id] r w' := by
    intro m r w'
    have hc : find (n "cc") ([(n "cc", m)] ++ []) = some m := rfl
    rw [reset, apply_clo_exact rfl, eval_app (by rfl)]
    simp only [List.zip_cons_cons, List.zip_nil_right, List.reverse_cons, List.reverse_nil, List.nil_append,
      evalArgs_cons, evalArgs_nil, eval_local hc]
    have g1 : ∀ (g : Val) (w1 : World W), Eval E ([(n "cc", m)] ++ []) w (v "cora/lib/monad#run-cc") g w1 ↔ g = runCC ∧ w1 = w := by
      intro g w1
      constructor
      · intro h
        cases h with
        | «local» _ _ _ _ h => simp [find, n] at h
        | global _ _ _ _ _ h => rw [hw.runCC] at h; cases h; exact ⟨rfl, rfl⟩
      · rintro ⟨rfl, rfl⟩
        exact .global _ _ _ _ rfl hw.runCC
    have g2 : ∀ (g : Val) (w1 : World W), Eval E ([(n "cc", m)] ++ []) w (v "cora/lib/monad#id") g w1 ↔ g = Monad.id ∧ w1 = w := by
      intro g w1
      constructor
      · intro h
        cases h with
        | «local» _ _ _ _ h => simp [find, n] at h
        | global _ _ _ _ _ h => rw [hw.id] at h; cases h; exact ⟨rfl, rfl⟩
      · rintro ⟨rfl, rfl⟩
        exact .global _ _ _ _ rfl hw.id
    have r1 : ∀ (w1 : World W), Apply E w1 runCC [m, Monad.id] r w' ↔ Apply E w1 m [Monad.id] r w' := by
      intro w1
      rw [runCC, apply_clo_exact rfl, call1] <;> rfl
    constructor
    · rintro ⟨_, _, _, _, h1, ⟨_, _, _, rfl, ⟨rfl, rfl⟩, _, _, _, rfl, h2, rfl, rfl⟩, h⟩
      obtain ⟨rfl, rfl⟩ := (g1 _ _).1 h1
      obtain ⟨rfl, rfl⟩ := (g2 _ _).1 h2
      exact (r1 _).1 h
    · intro h
      exact ⟨_, _, _, _, (g1 _ _).2 ⟨rfl, rfl⟩, ⟨_, _, _, rfl, ⟨rfl, rfl⟩, _, _, _, rfl, (g2 _ _).2 ⟨rfl, rfl⟩, rfl, rfl⟩,
        (r1 _).2 h⟩
  refine ⟨key m r w', (key _ _ _).2 (retC_apply.2 ?_)⟩
  exact (apply_clo_exact rfl).2 (.local _ _ _ _ rfl)

/-! ### instances -/

/-- `(lambda (s k) (k (cons 1 s) s))` is a state action that changes the state -/
def push : Val := .clo [n "s", n "k"] (.app (v "k") [.app (v "cons") [.lit (.int 1), v "s"], v "s"]) []

theorem push_apply {w w' : World W} {s k r : Val} : Apply E w push [s, k] r w' ↔ Apply E w k [.cons (.int 1) s, s] r w' := by
  have hk : find (n "k") ([(n "k", k), (n "s", s)] ++ []) = some k := rfl
  have hs : find (n "s") ([(n "k", k), (n "s", s)] ++ []) = some s := rfl
  rw [push, apply_clo_exact rfl]
  rw [show ([n "s", n "k"].zip [s, k]).reverse ++ [] = [(n "k", k), (n "s", s)] ++ [] from rfl,
    eval_app (primOf_local hk)]
  have hp : ∀ (w : World W) r w', Eval E ([(n "k", k), (n "s", s)] ++ []) w (.app (v "cons") [.lit (.int 1), v "s"]) r w' ↔
      ∃ vs w1, EvalArgs E ([(n "k", k), (n "s", s)] ++ []) w [.lit (.int 1), v "s"] vs w1 ∧
        primApply E "cons" vs w1 = some (r, w') := fun w r w' => eval_prim_exact rfl rfl
  simp only [evalArgs_cons, evalArgs_nil, eval_local hk, eval_local hs, eval_lit, hp]
  constructor
  · rintro ⟨_, _, _, _, ⟨rfl, rfl⟩, ⟨_, _, _, rfl, ⟨_, _, ⟨_, _, _, rfl, ⟨rfl, rfl⟩, _, _, _, rfl, ⟨rfl, rfl⟩, rfl, rfl⟩, hp⟩,
      _, _, _, rfl, ⟨rfl, rfl⟩, rfl, rfl⟩, h⟩
    cases hp
    exact h
  · intro h
    exact ⟨_, _, _, _, ⟨rfl, rfl⟩, ⟨_, _, _, rfl, ⟨_, _, ⟨_, _, _, rfl, ⟨rfl, rfl⟩, _, _, _, rfl, ⟨rfl, rfl⟩, rfl, rfl⟩, rfl⟩,
      _, _, _, rfl, ⟨rfl, rfl⟩, rfl, rfl⟩, h⟩

example : StateAction E push := fun w s => .inl ⟨_, _, w, fun k r w2 => push_apply⟩

/-- `(lambda (k) (k 666))`, as in `(shift k (k 666))`, is an action -/
example : ContAction E (retC (.int 666)) := C54_cont_actions.1 _

end Cora.Monad
