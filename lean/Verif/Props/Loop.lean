import Verif.Model.Loop
import Verif.Lemmas.Curry
/-
C71: `let-loop`. C72: `values` and `let-values`.
-/
open Spec.Lang
namespace Cora.Macro
variable {W : Type} {E : Ext W}

/-- how `(let-loop recur (x1 e1 x2 e2 …) body)` is written -/
def loopForm (recur : Sym) (bs : List (Sym × Core)) (body : Core) : Datum :=
  .list [kw "let-loop", .sym recur, .list (bs.flatMap fun b => [.sym b.1, b.2.form]), body.form]

/-- the environment of the body: the innermost binding is that of the loop itself -/
def loopEnv (recur : Sym) (R : Val) (bs : List (Sym × Core)) (vs : List Val) (env : Env) : Env :=
  (recur, R) :: (((bs.map (·.1)).zip vs).reverse ++ env)

/-- what the expansion is -/
def loopCore (recur : Sym) (bs : List (Sym × Core)) (body : Core) (k : Nat) : Core :=
  .app (.bind (.gen (k + 1))
    (.lam (.gen k :: bs.map (·.1)) (.bind recur (.app (.var (.gen k)) [.var (.gen k)]) body))
    (.app (.var (.gen (k + 1))) [.var (.gen (k + 1))])) (bs.map (·.2))

theorem loop_reverseH (res : List Datum) (l : List Datum) : reverseH (.list res) (.list l) = .list (l.reverse ++ res) := by
  induction l generalizing res with
  | nil => simp [Datum.list, reverseH]
  | cons a l ih =>
    have := ih (a :: res)
    simp only [Datum.list, reverseH] at this ⊢
    rw [this]
    simp

theorem extractParams_list (bs : List (Sym × Core)) : ∀ res : List Datum,
    extractParamsH (.list res) (.list (bs.flatMap fun b => [.sym b.1, b.2.form])) =
      some (.list (res.reverse ++ bs.map fun b => .sym b.1)) := by
  induction bs with
  | nil => intro res; simp only [List.flatMap_nil, Datum.list, extractParamsH, reverse]; rw [show Datum.nil = .list [] from rfl, loop_reverseH]; simp
  | cons b bs ih =>
    intro res
    have := ih (.sym b.1 :: res)
    simp only [List.flatMap_cons, List.cons_append, List.nil_append, Datum.list, extractParamsH] at this ⊢
    rw [this]
    simp

theorem extractInit_list (bs : List (Sym × Core)) : ∀ res : List Datum,
    extractInitH (.list res) (.list (bs.flatMap fun b => [.sym b.1, b.2.form])) =
      some (.list (res.reverse ++ bs.map fun b => b.2.form)) := by
  induction bs with
  | nil => intro res; simp only [List.flatMap_nil, Datum.list, extractInitH, reverse]; rw [show Datum.nil = .list [] from rfl, loop_reverseH]; simp
  | cons b bs ih =>
    intro res
    have := ih (b.2.form :: res)
    simp only [List.flatMap_cons, List.cons_append, List.nil_append, Datum.list, extractInitH] at this ⊢
    rw [this]
    simp

theorem loop_forms (l : List Core) : Core.forms l = l.map Core.form := by
  induction l with
  | nil => rfl
  | cons c l ih => simp [Core.forms, ih]

theorem loop_expands (recur : Sym) (bs : List (Sym × Core)) (body : Core) (k : Nat) :
    letLoopMacro (loopForm recur bs body) k = some ((loopCore recur bs body k).form, k + 2) := by
  have h1 := extractParams_list bs []
  have h2 := extractInit_list bs []
  simp only [Datum.list, List.reverse_nil, List.nil_append] at h1 h2
  simp only [letLoopMacro, loopForm, Datum.list, cdr, rewriteLetLoop, gensym, bind, StateT.bind, liftM, monadLift, MonadLift.monadLift,
    StateT.lift, Option.bind, pure, StateT.pure, h1, h2, loopCore, Core.form, Core.forms, loop_forms, List.map_map, List.map_cons,
    Function.comp_def]

theorem loop_apply_less {w w' : World W} {f v : Val} {n : Nat} {args : List Val} (hn : f.arity = some n) (h0 : 0 < args.length)
    (hl : args.length < n) : Apply E w f args v w' ↔ v = .pap f args ∧ w' = w := by
  constructor
  · intro h
    exact apply_det h (.less _ _ _ _ hn h0 hl)
  · rintro ⟨rfl, rfl⟩
    exact .less _ _ _ _ hn h0 hl

theorem loop_apply_pap {w w' : World W} {f v : Val} {got args : List Val} (ha : args ≠ []) :
    Apply E w (.pap f got) args v w' ↔ Apply E w f (got ++ args) v w' := by
  constructor
  · intro h
    cases h with
    | pap _ _ _ _ _ _ _ h => exact h
    | papNone => exact absurd rfl ha
    | none _ _ n h => cases h
    | less _ _ n _ h => cases h
    | more _ _ n _ _ _ _ _ h => cases h
  · exact fun h => .pap _ _ _ _ _ _ ha h

theorem eval_var_local {env : Env} {w w' : World W} {x : Sym} {u v : Val} (h : find x env = some u) :
    Eval E env w (.var x) v w' ↔ v = u ∧ w' = w := by
  constructor
  · intro hv
    cases hv with
    | «local» _ _ _ _ h1 => rw [h] at h1; cases h1; exact ⟨rfl, rfl⟩
    | global _ _ _ _ h1 => rw [h] at h1; cases h1
  · rintro ⟨rfl, rfl⟩
    exact .local _ _ _ _ h

/-- the function of a loop -/
def loopClo (recur : Sym) (bs : List (Sym × Core)) (body : Core) (k : Nat) (env : Env) : Val :=
  .clo (.gen k :: bs.map (·.1)) (.bind recur (.app (.var (.gen k)) [.var (.gen k)]) body)
    (capture (Core.lam (.gen k :: bs.map (·.1)) (.bind recur (.app (.var (.gen k)) [.var (.gen k)]) body)).fv env)

/-- a variable applied to itself, when it is bound to a function of several parameters -/
theorem eval_self {env : Env} {w w' : World W} {k n : Nat} {C v : Val} (hf : find (.gen k) env = some C) (hn : C.arity = some n)
    (h : 1 < n) : Eval E env w (.app (.var (.gen k)) [.var (.gen k)]) v w' ↔ v = .pap C [C] ∧ w' = w := by
  rw [eval_app (by rfl)]
  constructor
  · rintro ⟨g, vs, w1, w2, h1, h2, h3⟩
    obtain ⟨rfl, rfl⟩ := (eval_var_local hf).mp h1
    obtain ⟨u, us, w3, rfl, h4, h5⟩ := evalArgs_cons.mp h2
    obtain ⟨rfl, rfl⟩ := (eval_var_local hf).mp h4
    obtain ⟨rfl, rfl⟩ := evalArgs_nil.mp h5
    exact (loop_apply_less hn (by simp) (by simpa using h)).mp h3
  · rintro ⟨rfl, rfl⟩
    exact ⟨C, [C], w', w', .local _ _ _ _ hf, .cons _ _ _ _ _ _ _ _ (.local _ _ _ _ hf) (.nil _ _),
      .less _ _ n _ hn (by simp) (by simpa using h)⟩

theorem find_zip_none {x : Sym} {ps : List Sym} {vs : List Val} (h : x ∉ ps) : find x (ps.zip vs).reverse = none := by
  refine find_none_of_not_mem fun p hp e => h ?_
  rw [← e]
  exact (List.of_mem_zip (List.mem_reverse.mp hp)).1

theorem find_zip_some {x : Sym} {ps : List Sym} {vs : List Val} (h : x ∈ ps) (hl : vs.length = ps.length) :
    (find x (ps.zip vs).reverse).isSome := by
  induction ps generalizing vs with
  | nil => cases h
  | cons p ps ih =>
    cases vs with
    | nil => cases hl
    | cons v vs =>
      simp only [List.zip_cons_cons, List.reverse_cons]
      rw [find_append, Option.isSome_or]
      rcases List.mem_cons.mp h with rfl | h
      · simp [find]
      · rw [ih h (by simpa using hl), Bool.true_or]

/-- `let-loop` with at least one variable is a loop: there is a function `R`, bound to the name of the loop in the body,
that takes new values for the variables and evaluates the body with them; the whole form evaluates the initial values from
left to right and then the body with them. (The two symbols that `gensym` makes do not occur in the program.) -/
theorem C71_let_loop_partial (recur : Sym) (bs : List (Sym × Core)) (body : Core) (k : Nat) (env : Env) (hbs : bs ≠ [])
    (hk : Sym.gen k ∉ body.fv) (hp : Sym.gen k ∉ bs.map (·.1)) :
    ∃ c, letLoopMacro (loopForm recur bs body) k = some (c.form, k + 2) ∧
      ∃ R, (∀ (w : World W) vs v w', vs.length = bs.length →
          (Apply E w R vs v w' ↔ Eval E (loopEnv recur R bs vs env) w body v w')) ∧
        ∀ (w : World W) v w', Eval E env w c v w' ↔
          ∃ vs w1, EvalArgs E env w (bs.map (·.2)) vs w1 ∧ Eval E (loopEnv recur R bs vs env) w1 body v w' := by
  refine ⟨_, loop_expands recur bs body k, .pap (loopClo recur bs body k env) [loopClo recur bs body k env], ?_⟩
  have hlen : 1 < bs.length + 1 := by
    have := List.length_pos_iff.mpr hbs
    omega
  have harity : (loopClo recur bs body k env).arity = some (bs.length + 1) := by simp [loopClo, Val.arity]
  have hR : ∀ (w : World W) vs v w', vs.length = bs.length →
      (Apply E w (.pap (loopClo recur bs body k env) [loopClo recur bs body k env]) vs v w' ↔
        Eval E (loopEnv recur (.pap (loopClo recur bs body k env) [loopClo recur bs body k env]) bs vs env) w body v w') := by
    intro w vs v w' hvs
    have hne : vs ≠ [] := by
      intro h; rw [h] at hvs; exact hbs (List.length_eq_zero_iff.mp hvs.symm)
    rw [loop_apply_pap hne]
    conv => lhs; rw [loopClo]
    rw [apply_clo_exact (by simp [hvs]), eval_bind]
    have hgen : find (.gen k) (((Sym.gen k :: bs.map (·.1)).zip (loopClo recur bs body k env :: vs)).reverse ++
        capture (Core.lam (.gen k :: bs.map (·.1)) (.bind recur (.app (.var (.gen k)) [.var (.gen k)]) body)).fv env) =
        some (loopClo recur bs body k env) := by
      simp only [List.zip_cons_cons, List.reverse_cons]
      rw [find_append, find_append, find_zip_none hp]
      simp [find]
    have hbody : ∀ x ∈ body.fv, find x ((recur, Val.pap (loopClo recur bs body k env) [loopClo recur bs body k env]) ::
        (((Sym.gen k :: bs.map (·.1)).zip (loopClo recur bs body k env :: vs)).reverse ++
        capture (Core.lam (.gen k :: bs.map (·.1)) (.bind recur (.app (.var (.gen k)) [.var (.gen k)]) body)).fv env)) =
        find x (loopEnv recur (.pap (loopClo recur bs body k env) [loopClo recur bs body k env]) bs vs env) := by
      intro x hx
      have hxk : Sym.gen k ≠ x := by rintro rfl; exact hk hx
      simp only [loopEnv, find]
      split
      · rfl
      · rename_i hxr
        simp only [List.zip_cons_cons, List.reverse_cons]
        rw [find_append, find_append, find_append]
        simp only [find, if_neg hxk, Option.or_none]
        by_cases hxp : x ∈ bs.map (·.1)
        · have : (find x ((bs.map (·.1)).zip vs).reverse).isSome := by
            have hl : vs.length = (bs.map (·.1)).length := by simpa using hvs
            generalize bs.map (·.1) = ps at hxp hl
            exact find_zip_some hxp hl
          obtain ⟨u, hu⟩ := Option.isSome_iff_exists.mp this
          simp [hu]
        · rw [find_zip_none hxp, Option.none_or, Option.none_or, find_capture, if_pos]
          simp [Core.fv, hx, hxp, Ne.symm hxk, Ne.symm hxr]
    constructor
    · rintro ⟨u, w1, h1, h2⟩
      obtain ⟨rfl, rfl⟩ := (eval_self hgen harity hlen).mp h1
      exact (eval_congr hbody).mp h2
    · intro h
      exact ⟨_, w, (eval_self hgen harity hlen).mpr ⟨rfl, rfl⟩, (eval_congr hbody).mpr h⟩
  refine ⟨hR, fun w v w' => ?_⟩
  rw [loopCore, eval_app (by rfl)]
  have hfn : ∀ (w : World W) g w1, Eval E env w (.bind (.gen (k + 1))
      (.lam (.gen k :: bs.map (·.1)) (.bind recur (.app (.var (.gen k)) [.var (.gen k)]) body))
      (.app (.var (.gen (k + 1))) [.var (.gen (k + 1))])) g w1 ↔
      g = .pap (loopClo recur bs body k env) [loopClo recur bs body k env] ∧ w1 = w := by
    intro w g w1
    have hf : find (Sym.gen (k + 1)) ((Sym.gen (k + 1), loopClo recur bs body k env) :: env) =
        some (loopClo recur bs body k env) := by simp [find]
    rw [eval_bind]
    constructor
    · rintro ⟨u, w2, h1, h2⟩
      obtain ⟨rfl, rfl⟩ := eval_lam.mp h1
      exact (eval_self hf harity hlen).mp h2
    · rintro ⟨rfl, rfl⟩
      exact ⟨_, _, eval_lam.mpr ⟨rfl, rfl⟩, (eval_self hf harity hlen).mpr ⟨rfl, rfl⟩⟩
  constructor
  · rintro ⟨g, vs, w1, w2, h1, h2, h3⟩
    obtain ⟨rfl, rfl⟩ := (hfn _ _ _).mp h1
    exact ⟨vs, w2, h2, (hR _ _ _ _ (by rw [evalArgs_length h2, List.length_map])).mp h3⟩
  · rintro ⟨vs, w1, h1, h2⟩
    exact ⟨_, vs, w, w1, (hfn _ _ _).mpr ⟨rfl, rfl⟩, h1, (hR _ _ _ _ (by rw [evalArgs_length h1, List.length_map])).mpr h2⟩

theorem loop0_evalF {cenv : Env} {recur : Sym} {body : Core} {k : Nat} {C : Val}
    (hC : C = .clo [.gen k] (.bind recur (.app (.var (.gen k)) [.var (.gen k)]) body) cenv) :
    ∀ (n : Nat) (env : Env) (w : World W), find (.gen k) env = some C →
      evalF E n env w (.app (.var (.gen k)) [.var (.gen k)]) = none := by
  intro n
  induction n using Nat.strongRecOn with
  | ind n ih =>
    intro env w hf
    match n with
    | 0 => rfl
    | 1 => rfl
    | 2 => simp [evalF, argsF, Core.primOf, hf]
    | 3 => simp [evalF, argsF, applyF, Core.primOf, hf, hC, Val.arity]
    | 4 => simp [evalF, argsF, applyF, Core.primOf, hf, hC, Val.arity]
    | n + 5 =>
      have h1 := ih (n + 2) (by omega) ((Sym.gen k, C) :: cenv) w (by simp [find])
      have hb : evalF E (n + 3) ((Sym.gen k, C) :: cenv) w (.bind recur (.app (.var (.gen k)) [.var (.gen k)]) body) = none := by
        rw [evalF, h1]
      have ha : applyF E (n + 4) w C [C] = none := by
        subst hC
        rw [applyF]
        simpa [Val.arity] using hb
      rw [evalF]
      simp only [Core.primOf]
      have hv : ∀ m, evalF E (m + 1) env w (.var (.gen k)) = some (C, w) := fun m => by simp [evalF, hf]
      rw [hv]
      have hargs : argsF E (n + 4) env w [.var (.gen k)] = some ([C], w) := by
        rw [argsF, hv]; simp [argsF]
      simp only [hargs, ha]

/-- without a variable the form has no value, whatever its body: it applies the function that is to be the loop at once,
again and again -/
theorem C71_no_variables_wrong (recur : Sym) (body : Core) (k : Nat) (env : Env) :
    ∃ c, letLoopMacro (loopForm recur [] body) k = some (c.form, k + 2) ∧
      ∀ (w : World W) v w', ¬ Eval E env w c v w' := by
  refine ⟨_, loop_expands recur [] body k, fun w v w' h => ?_⟩
  rw [loopCore, eval_app (by rfl)] at h
  obtain ⟨g, vs, w1, w2, h, -⟩ := h
  obtain ⟨u, w3, h1, h2⟩ := eval_bind.mp h
  obtain ⟨rfl, rfl⟩ := eval_lam.mp h1
  rw [eval_app (by rfl)] at h2
  obtain ⟨g, vs, w1, w2, h1, h3, h4⟩ := h2
  have hf : ∀ C : Val, find (Sym.gen (k + 1)) ((Sym.gen (k + 1), C) :: env) = some C := fun C => by simp [find]
  obtain ⟨rfl, rfl⟩ := (eval_var_local (hf _)).mp h1
  obtain ⟨u, us, w3, rfl, h5, h6⟩ := evalArgs_cons.mp h3
  obtain ⟨rfl, rfl⟩ := (eval_var_local (hf _)).mp h5
  obtain ⟨rfl, rfl⟩ := evalArgs_nil.mp h6
  rw [apply_clo_exact (by rfl)] at h4
  obtain ⟨u, w4, h7, -⟩ := eval_bind.mp h4
  obtain ⟨n, h8⟩ := evalF_complete h7
  have hg : ∀ (C : Val) e, find (Sym.gen k) ((Sym.gen k, C) :: e) = some C := fun C e => by simp [find]
  have h9 := (loop0_evalF rfl n _ _ (hg _ _)).symm.trans h8
  cases h9

/-- `(let-loop go (x e) (if (cons? x) (go (cdr x)) x))` walks down every list, whatever `e` evaluates to it from -/
example (E : Ext W) (env : Env) (w w1 : World W) (e : Core) (l : List Val) (d : Val) (hd : ∀ a b, d ≠ .cons a b)
    (hc : find (.named "cons?") env = none) (hr : find (.named "cdr") env = none)
    (he : Eval E env w e (l.foldr .cons d) w1) :
    ∃ c, letLoopMacro (loopForm (.named "go") [(.named "x", e)]
        (.ite (.app (.var (.named "cons?")) [.var (.named "x")])
          (.app (.var (.named "go")) [.app (.var (.named "cdr")) [.var (.named "x")]]) (.var (.named "x")))) 7 =
        some (c.form, 9) ∧ Eval E env w c d w1 := by
  obtain ⟨c, h1, R, h2, h3⟩ := C71_let_loop_partial (E := E) (W := W) (.named "go") [(.named "x", e)]
    (.ite (.app (.var (.named "cons?")) [.var (.named "x")])
      (.app (.var (.named "go")) [.app (.var (.named "cdr")) [.var (.named "x")]]) (.var (.named "x"))) 7 env (by simp)
    (by simp [Core.fv, Core.fvs]) (by simp)
  refine ⟨c, h1, (h3 _ _ _).mpr ⟨[l.foldr .cons d], w1, .cons _ _ _ _ _ _ _ _ he (.nil _ _), ?_⟩⟩
  have hgo : ∀ u, find (.named "go") (loopEnv (.named "go") R [(.named "x", e)] [u] env) = some R := fun u => by
    simp [loopEnv, find]
  have hx : ∀ u, find (.named "x") (loopEnv (.named "go") R [(.named "x", e)] [u] env) = some u := fun u => by
    simp [loopEnv, find]
  have hp1 : ∀ u, Core.primOf (loopEnv (.named "go") R [(.named "x", e)] [u] env) (.var (.named "cons?")) = some "cons?" :=
    fun u => by simp [loopEnv, find, Core.primOf, hc, primArity]
  have hp2 : ∀ u, Core.primOf (loopEnv (.named "go") R [(.named "x", e)] [u] env) (.var (.named "cdr")) = some "cdr" :=
    fun u => by simp [loopEnv, find, Core.primOf, hr, primArity]
  have hp3 : ∀ u, Core.primOf (loopEnv (.named "go") R [(.named "x", e)] [u] env) (.var (.named "go")) = none :=
    fun u => by simp [loopEnv, find, Core.primOf]
  clear he
  induction l with
  | nil =>
    refine .else _ _ _ _ _ (.bool false) _ _ _ (.prim _ _ _ _ _ [d] _ w1 _ (hp1 _)
      (.cons _ _ _ _ _ _ _ _ (.local _ _ _ _ (hx _)) (.nil _ _)) (.prim _ _ _ _ _ rfl ?_)) (by simp) (.local _ _ _ _ (hx _))
    cases d <;> first | rfl | exact absurd rfl (hd _ _)
  | cons a l ih =>
    refine .then _ _ _ _ _ _ w1 _ (.prim _ _ _ _ _ [.cons a (l.foldr .cons d)] _ w1 _ (hp1 _)
      (.cons _ _ _ _ _ _ _ _ (.local _ _ _ _ (hx _)) (.nil _ _)) (.prim _ _ _ _ _ rfl rfl)) ?_
    refine .app _ _ _ _ R [l.foldr .cons d] _ _ _ _ (hp3 _) (.local _ _ _ _ (hgo _)) (.cons _ _ _ _ _ _ _ _
      (.prim _ _ _ _ _ [.cons a (l.foldr .cons d)] _ w1 _ (hp2 _)
      (.cons _ _ _ _ _ _ _ _ (.local _ _ _ _ (hx _)) (.nil _ _)) (.prim _ _ _ _ _ rfl rfl)) (.nil _ _)) ?_
    exact (h2 _ _ _ _ rfl).mpr ih

/-! ### several values -/

/-- how `(values e1 e2 …)` is written -/
def valuesForm (es : List Core) : Datum := .cons (kw "values") (.list (es.map Core.form))

/-- how `(let-values (x1 x2 …) m body)` is written -/
def letValuesForm (xs : List Sym) (m body : Core) : Datum :=
  .list [kw "let-values", .list (xs.map .sym), m.form, body.form]

theorem values_expands (es : List Core) (k : Nat) :
    valuesMacro (valuesForm es) k = some ((Core.lam [.gen k] (.app (.var (.gen k)) es)).form, k + 1) := by
  simp only [valuesMacro, valuesForm, Datum.list, cdr, gensym, bind, StateT.bind, liftM, monadLift, MonadLift.monadLift,
    StateT.lift, Option.bind, pure, StateT.pure, Core.form, loop_forms, List.map_cons, List.map_nil]

theorem letValues_expands (xs : List Sym) (m body : Core) :
    letValuesMacro (letValuesForm xs m body) =
      some (Core.app (.var (.named "call-with-values")) [m, .lam xs body]).form := by
  simp [letValuesMacro, letValuesForm, Datum.list, cadr, caddr, cdddr, cddr, car, cdr, Core.form, Core.forms, kw]

theorem evalArgs_congr {env env' : Env} {es : List Core} (h : ∀ x ∈ Core.fvs es, find x env = find x env') {w w' : World W}
    {vs : List Val} : EvalArgs E env w es vs w' ↔ EvalArgs E env' w es vs w' :=
  ⟨evalArgs_env h, evalArgs_env fun x hx => (h x hx).symm⟩

theorem letValues_core (xs : List Sym) (m body : Core) (es : List Core) (k : Nat) (env env1 : Env)
    (hk : Sym.gen k ∉ Core.fvs es) (hlen : es.length = xs.length) (hloc : find (.named "call-with-values") env = none) :
    ∀ (w0 w1 w w2 w' : World W) u, Eval E env1 w0 (.lam [.gen k] (.app (.var (.gen k)) es)) u w1 →
      w.globals (.named "call-with-values") = some callWithValues →
        Eval E env w m u w2 → ∀ v, Eval E env w (.app (.var (.named "call-with-values")) [m, .lam xs body]) v w' ↔
          ∃ vs w3, EvalArgs E env1 w2 es vs w3 ∧ Eval E ((xs.zip vs).reverse ++ env) w3 body v w' := by
  intro w0 w1 w w2 w' u hu hg hm v
  obtain ⟨rfl, rfl⟩ := eval_lam.mp hu
  have hprim : Core.primOf env (.var (.named "call-with-values")) = none := by simp [Core.primOf, primArity]
  rw [eval_app hprim]
  have hK : ∀ (w : World W) vs v w', vs.length = xs.length →
      (Apply E w (.clo xs body (capture (Core.lam xs body).fv env)) vs v w' ↔
        Eval E ((xs.zip vs).reverse ++ env) w body v w') := by
    intro w vs v w' hvs
    rw [apply_clo_exact hvs]
    apply eval_congr
    intro x hx
    rw [find_append, find_append]
    by_cases hxp : x ∈ xs
    · obtain ⟨u, hu⟩ := Option.isSome_iff_exists.mp (find_zip_some hxp hvs)
      simp [hu]
    · rw [find_zip_none hxp, Option.none_or, Option.none_or, find_capture, if_pos]
      simp [Core.fv, hx, hxp]
  have hV : ∀ (w : World W) K v w',
      (Apply E w (.clo [.gen k] (.app (.var (.gen k)) es) (capture (Core.lam [.gen k] (.app (.var (.gen k)) es)).fv env1))
        [K] v w' ↔ ∃ vs w3, EvalArgs E env1 w es vs w3 ∧ Apply E w3 K vs v w') := by
    intro w K v w'
    rw [apply_clo_exact (by rfl), eval_app (by rfl)]
    have hf : ∀ e, find (Sym.gen k) (([Sym.gen k].zip [K]).reverse ++ e) = some K := fun e => by simp [find]
    have hes : ∀ x ∈ Core.fvs es, find x (([Sym.gen k].zip [K]).reverse ++
        capture (Core.lam [.gen k] (.app (.var (.gen k)) es)).fv env1) = find x env1 := by
      intro x hx
      have hxk : x ≠ Sym.gen k := by rintro rfl; exact hk hx
      rw [find_append, find_zip_none (by simpa using hxk), Option.none_or, find_capture, if_pos]
      simp [Core.fv, hx, hxk]
    constructor
    · rintro ⟨g, vs, w1, w2, h1, h2, h3⟩
      obtain ⟨rfl, rfl⟩ := (eval_var_local (hf _)).mp h1
      exact ⟨vs, w2, (evalArgs_congr hes).mp h2, h3⟩
    · rintro ⟨vs, w3, h1, h2⟩
      exact ⟨K, vs, w, w3, .local _ _ _ _ (hf _), (evalArgs_congr hes).mpr h1, h2⟩
  have hC : ∀ (w : World W) V K v w', Apply E w callWithValues [V, K] v w' ↔ Apply E w V [K] v w' := by
    intro w V K v w'
    have hm : find (Sym.named "m") (([Sym.named "m", .named "k"].zip [V, K]).reverse ++ []) = some V := by simp [find]
    have hk : find (Sym.named "k") (([Sym.named "m", .named "k"].zip [V, K]).reverse ++ []) = some K := by simp [find]
    rw [callWithValues, apply_clo_exact (by rfl), eval_app (by simp [Core.primOf, primArity])]
    constructor
    · rintro ⟨g, vs, w1, w2, h1, h2, h3⟩
      obtain ⟨rfl, rfl⟩ := (eval_var_local hm).mp h1
      obtain ⟨u, us, w3, rfl, h5, h6⟩ := evalArgs_cons.mp h2
      obtain ⟨rfl, rfl⟩ := (eval_var_local hk).mp h5
      obtain ⟨rfl, rfl⟩ := evalArgs_nil.mp h6
      exact h3
    · intro h
      exact ⟨V, [K], w, w, .local _ _ _ _ hm, .cons _ _ _ _ _ _ _ _ (.local _ _ _ _ hk) (.nil _ _), h⟩
  constructor
  · rintro ⟨g, vs, w3, w4, h1, h2, h3⟩
    cases h1 with
    | «local» _ _ _ _ h1 => rw [hloc] at h1; cases h1
    | global _ _ _ _ _ h1 =>
      rw [hg] at h1
      cases h1
      obtain ⟨u, us, w3, rfl, h5, h6⟩ := evalArgs_cons.mp h2
      obtain ⟨rfl, rfl⟩ := eval_det h5 hm
      obtain ⟨u, us, w3, rfl, h7, h8⟩ := evalArgs_cons.mp h6
      obtain ⟨rfl, rfl⟩ := eval_lam.mp h7
      obtain ⟨rfl, rfl⟩ := evalArgs_nil.mp h8
      obtain ⟨vs, w3, h9, h10⟩ := (hV _ _ _ _).mp ((hC _ _ _ _ _).mp h3)
      exact ⟨vs, w3, h9, (hK _ _ _ _ ((evalArgs_length h9).trans hlen)).mp h10⟩
  · rintro ⟨vs, w3, h1, h2⟩
    exact ⟨callWithValues, _, w, w2, .global _ _ _ _ hloc hg,
      .cons _ _ _ _ _ _ _ _ hm (.cons _ _ _ _ _ _ _ _ (.lam _ _ _ _) (.nil _ _)),
      (hC _ _ _ _ _).mpr ((hV _ _ _ _).mpr ⟨vs, w3, h1, (hK _ _ _ _ ((evalArgs_length h1).trans hlen)).mpr h2⟩)⟩

/-- `let-values` takes several values apart: if the expression `m` returns what a form `(values e1 … en)` evaluated to in
some environment `env1`, then `(let-values (x1 … xn) m body)` evaluates `e1 … en` in that environment, from left to right,
and then `body` with `x1 … xn` bound to their values. (`call-with-values` is the function of the library, the symbol that
`gensym` makes does not occur in the program.) -/
theorem C72_let_values_partial (xs : List Sym) (m body : Core) (es : List Core) (k : Nat) (env env1 : Env)
    (hk : Sym.gen k ∉ Core.fvs es) (hlen : es.length = xs.length) (hloc : find (.named "call-with-values") env = none) :
    ∃ cv cl, valuesMacro (valuesForm es) k = some (cv.form, k + 1) ∧
      letValuesMacro (letValuesForm xs m body) = some cl.form ∧
      ∀ (w0 w1 w w2 w' : World W) u, Eval E env1 w0 cv u w1 → w.globals (.named "call-with-values") = some callWithValues →
        Eval E env w m u w2 → ∀ v, Eval E env w cl v w' ↔
          ∃ vs w3, EvalArgs E env1 w2 es vs w3 ∧ Eval E ((xs.zip vs).reverse ++ env) w3 body v w' := by
  refine ⟨_, _, values_expands es k, letValues_expands xs m body,
    letValues_core xs m body es k env env1 hk hlen hloc⟩

/-- used at once, `(let-values (x1 … xn) (values e1 … en) body)` is a `let` of all the variables together -/
theorem C72_values_partial (xs : List Sym) (body : Core) (es : List Core) (k : Nat) (env : Env) (w w' : World W) (v : Val)
    (hk : Sym.gen k ∉ Core.fvs es) (hlen : es.length = xs.length) (hloc : find (.named "call-with-values") env = none)
    (hg : w.globals (.named "call-with-values") = some callWithValues) :
    ∃ cv cl, valuesMacro (valuesForm es) k = some (cv.form, k + 1) ∧
      letValuesMacro (letValuesForm xs cv body) = some cl.form ∧
      (Eval E env w cl v w' ↔
        ∃ vs w1, EvalArgs E env w es vs w1 ∧ Eval E ((xs.zip vs).reverse ++ env) w1 body v w') := by
  exact ⟨_, _, values_expands es k, letValues_expands xs _ body,
    letValues_core xs _ body es k env env hk hlen hloc w w w w w' _ (.lam _ _ _ _) hg (.lam _ _ _ _) v⟩

/-- the operands of `values` are not evaluated where it stands: the form has a value, and changes nothing, whatever they are,
even when evaluating them is an error -/
theorem C72_late_wrong (es : List Core) (k : Nat) (env : Env) :
    ∃ cv, valuesMacro (valuesForm es) k = some (cv.form, k + 1) ∧
      ∃ u, ∀ (w : World W) v w', Eval E env w cv v w' ↔ v = u ∧ w' = w :=
  ⟨_, values_expands es k, _, fun _ _ _ => eval_lam⟩

/-- `(let-values (a b) (values b a) (cons a b))` swaps -/
example (E : Ext W) (w : World W) (u v : Val) (hg : w.globals (.named "call-with-values") = some callWithValues) :
    ∃ cv cl, valuesMacro (valuesForm [.var (.named "b"), .var (.named "a")]) 3 = some (cv.form, 4) ∧
      letValuesMacro (letValuesForm [.named "a", .named "b"] cv
        (.app (.var (.named "cons")) [.var (.named "a"), .var (.named "b")])) = some cl.form ∧
      Eval E [(.named "a", u), (.named "b", v)] w cl (.cons v u) w := by
  obtain ⟨cv, cl, h1, h2, h3⟩ := C72_values_partial (E := E) [.named "a", .named "b"]
    (.app (.var (.named "cons")) [.var (.named "a"), .var (.named "b")]) [.var (.named "b"), .var (.named "a")] 3
    [(.named "a", u), (.named "b", v)] w w (.cons v u) (by simp [Core.fvs, Core.fv]) rfl (by simp [find]) hg
  refine ⟨cv, cl, h1, h2, h3.mpr ⟨[v, u], w, ?_, ?_⟩⟩
  · exact .cons _ _ _ _ _ _ _ _ (.local _ _ _ _ (by simp [find])) (.cons _ _ _ _ _ _ _ _ (.local _ _ _ _ (by simp [find]))
      (.nil _ _))
  · refine .prim _ _ _ _ "cons" [v, u] _ w _ (by simp [Core.primOf, find, primArity]) ?_ (.prim _ _ _ _ _ rfl rfl)
    exact .cons _ _ _ _ _ _ _ _ (.local _ _ _ _ (by simp [find])) (.cons _ _ _ _ _ _ _ _ (.local _ _ _ _ (by simp [find]))
      (.nil _ _))

/-- the operands are evaluated where the values are taken, and each time: the form stood in the world `w0`, they see the world
`w` -/
theorem C72_again_wrong (xs : List Sym) (body : Core) (es : List Core) (k : Nat) (env : Env) (m : Sym)
    (hk : Sym.gen k ∉ Core.fvs es) (hlen : es.length = xs.length) (hloc : find (.named "call-with-values") env = none) :
    ∃ cv cl, valuesMacro (valuesForm es) k = some (cv.form, k + 1) ∧
      letValuesMacro (letValuesForm xs (.var m) body) = some cl.form ∧
      ∀ (w0 w w' : World W) u v, Eval E env w0 cv u w0 → find m env = some u →
        w.globals (.named "call-with-values") = some callWithValues →
        (Eval E env w cl v w' ↔ ∃ vs w3, EvalArgs E env w es vs w3 ∧ Eval E ((xs.zip vs).reverse ++ env) w3 body v w') :=
  ⟨_, _, values_expands es k, letValues_expands xs _ body, fun w0 w w' u v hu hm hg =>
    letValues_core xs _ body es k env env hk hlen hloc w0 w0 w w w' u hu hg (.local _ _ _ _ hm) v⟩

/-- `let-values` is not hygienic: where the program has a variable of its own called `call-with-values`, which holds
something that is not a function, the form has no value -/
theorem C72_captured_wrong (xs : List Sym) (m body : Core) (env : Env) (n : Int)
    (hloc : find (.named "call-with-values") env = some (.int n)) :
    ∃ cl, letValuesMacro (letValuesForm xs m body) = some cl.form ∧ ∀ (w : World W) v w', ¬ Eval E env w cl v w' := by
  refine ⟨_, letValues_expands xs m body, fun w v w' h => ?_⟩
  rw [eval_app (by simp [Core.primOf, primArity])] at h
  obtain ⟨g, vs, w1, w2, h1, h2, h3⟩ := h
  obtain ⟨rfl, rfl⟩ := (eval_var_local hloc).mp h1
  cases h3 with
  | none _ _ _ h => cases h
  | less _ _ _ _ h => cases h
  | more _ _ _ _ _ _ _ _ h => cases h

end Cora.Macro
