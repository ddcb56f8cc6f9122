import Verif.Model.Forall
import Verif.Spec.Forall
import Verif.Props.Quasi
import Verif.Props.Loop
/-
C105: `forall` makes a new copy of a type.
-/
open Spec.Lang
namespace Cora.Macro
variable {mt : Macros} {W : Type} {E : Ext W}

/-- `forall` is a macro, `tvar` is none -/
structure HasForall (mt : Macros) : Prop where
  isMacro : mt.fn (.named "forall") = some fun _ e => liftM (forallMacro e)
  tvar : mt.fn (.named "tvar") = none

/-- `+` adds -/
def Adds (E : Ext W) : Prop := ∀ a b w, E.prim "+" [.int a, .int b] w = some (.int (a + b), w)

/-- `tvar` is the function of the library, and the next variable is `n` -/
def Counts (w : World W) (n : Int) : Prop := w.globals (.named "tvar") = some tvarFn ∧ w.globals tvarVar = some (.int n)

/-! ### the macro -/

theorem forall_reverseH (res l : List Datum) : reverseH (.list res) (.list l) = .list (l.reverse ++ res) := by
  induction l generalizing res with
  | nil => simp [Datum.list, reverseH]
  | cons a l ih =>
    have := ih (a :: res)
    simp only [Datum.list, reverseH] at this ⊢
    rw [this]
    simp

theorem appendTvar_list (vs : List Sym) : ∀ res : List Datum, appendTvar (.list (vs.map .sym)) (.list res) =
    some (.list (res.reverse ++ vs.flatMap fun x => [.sym x, .list [kw "tvar"]])) := by
  induction vs with
  | nil =>
    intro res
    simp only [List.map_nil, Datum.list, appendTvar, reverse]
    rw [show Datum.nil = .list [] from rfl, forall_reverseH]; simp
  | cons x vs ih =>
    intro res
    have := ih (.list [kw "tvar"] :: .sym x :: res)
    simp only [List.map_cons, Datum.list, appendTvar] at this ⊢
    rw [this]
    simp

theorem append_list (a b : List Datum) : append (.list a) (.list b) = some (.list (a ++ b)) := by
  induction a with
  | nil => rfl
  | cons x a ih => simp only [Datum.list, append, ih, Option.map_some, List.cons_append]

theorem elemD_list (x : Sym) (vs : List Sym) : elemD (.sym x) (.list (vs.map .sym)) = decide (x ∈ vs) := by
  induction vs with
  | nil => rfl
  | cons y vs ih => simp [Datum.list, elemD, ih]

mutual
/-- the template that `forall` makes of a scheme -/
def tmplOf : Scheme → Tmpl Datum
  | .atom d => .atom d
  | .hole x => .hole (.sym x)
  | .list t ts => .list (tmplOf t) (tmplsOf ts)
def tmplsOf : List Scheme → List (Tmpl Datum)
  | [] => []
  | t :: ts => tmplOf t :: tmplsOf ts
end

mutual
theorem replace_scheme {vs : List Sym} : ∀ (t : Scheme), Scheme.over vs t →
    replaceTvlist (.list (vs.map .sym)) (Scheme.text t) = some (tmplOf t).form
  | .atom d, h => by
    rcases h with rfl | ⟨x, rfl, hx, -⟩
    · rfl
    · simp [Scheme.text, replaceTvlist, elemD_list, hx, tmplOf, Tmpl.form]
  | .hole x, h => by
    have h : x ∈ vs := h
    simp [Scheme.text, replaceTvlist, elemD_list, h, tmplOf, Tmpl.form]
  | .list t ts, h => by
    simp [Scheme.text, replaceTvlist, replace_scheme t h.1, replace_schemes ts h.2, tmplOf, Tmpl.form]
theorem replace_schemes {vs : List Sym} : ∀ (ts : List Scheme), Scheme.overs vs ts →
    replaceTvlist (.list (vs.map .sym)) (.list (Scheme.texts ts)) = some (.list (Tmpl.forms (tmplsOf ts)))
  | [], _ => rfl
  | t :: ts, h => by
    simp [Scheme.texts, Datum.list, replaceTvlist, replace_scheme t h.1, replace_schemes ts h.2, tmplsOf, Tmpl.forms]
end

theorem letOperands_tvar (vs : List Sym) (b : Datum) : letOperands (vs.map fun x => (x, .list [kw "tvar"])) b =
    (vs.flatMap fun x => [.sym x, .list [kw "tvar"]]) ++ [b] := by
  induction vs with
  | nil => rfl
  | cons x vs ih => simp [letOperands, ih]

theorem forall_expands {vs : List Sym} {t : Scheme} (ht : Scheme.over vs t) : forallMacro (forallForm vs t) =
    some (.cons (kw "let") (.list (letOperands (vs.map fun x => (x, .list [kw "tvar"])) (.list [kw "backquote", (tmplOf t).form])))) := by
  have h := appendTvar_list vs []
  rw [show Datum.list [] = .nil from rfl] at h
  simp only [List.reverse_nil, List.nil_append] at h
  have e1 : cadr (forallForm vs t) = some (.list (vs.map .sym)) := rfl
  have e2 : caddr (forallForm vs t) = some (Scheme.text t) := rfl
  simp only [forallMacro, e1, e2, h, replace_scheme t ht, append_list, Option.bind_eq_bind, Option.bind_some, letOperands_tvar]
  rfl

mutual
theorem tmplOf_ok {vs : List Sym} : ∀ (t : Scheme), Scheme.over vs t → (tmplOf t).ok
  | .atom d, h => by
    rcases h with rfl | ⟨x, rfl, -⟩ <;> simp [tmplOf, Tmpl.ok]
  | .hole x, _ => trivial
  | .list t ts, h => by
    refine ⟨tmplOf_ok t h.1, tmplsOf_ok ts h.2, ?_⟩
    rintro ⟨h1, -⟩
    cases t with
    | atom d =>
      simp only [tmplOf, Tmpl.atom.injEq] at h1
      rcases h.1 with e | ⟨x, e, -, hx⟩
      · rw [e] at h1; cases h1
      · rw [e] at h1; cases h1; exact hx rfl
    | hole x => simp [tmplOf] at h1
    | list a b => simp [tmplOf] at h1
theorem tmplsOf_ok {vs : List Sym} : ∀ (ts : List Scheme), Scheme.overs vs ts → Tmpl.oks (tmplsOf ts)
  | [], _ => trivial
  | t :: ts, h => ⟨tmplOf_ok t h.1, tmplsOf_ok ts h.2⟩
end

mutual
theorem holes_tmplOf {K : Nat} {vs : List Sym} (hv : ∀ x ∈ vs, ∀ n, K ≤ n → x ≠ .gen n) : ∀ (t : Scheme), Scheme.over vs t →
    ∀ e ∈ holes (tmplOf t), Expandable mt K e
  | .atom d, _, e, he => by simp [tmplOf, holes] at he
  | .hole x, h, e, he => by
    simp only [tmplOf, holes, List.mem_singleton] at he
    subst he
    exact fun k _ => ⟨.var x, k, turns_var, fun n hn hm => by
      simp only [Core.fv, List.mem_singleton] at hm
      exact hv x h n hn hm.symm⟩
  | .list t ts, h, e, he => by
    simp only [tmplOf, holes, List.mem_append] at he
    exact he.elim (holes_tmplOf hv t h.1 e) (holess_tmplsOf hv ts h.2 e)
theorem holess_tmplsOf {K : Nat} {vs : List Sym} (hv : ∀ x ∈ vs, ∀ n, K ≤ n → x ≠ .gen n) : ∀ (ts : List Scheme), Scheme.overs vs ts →
    ∀ e ∈ holess (tmplsOf ts), Expandable mt K e
  | [], _, e, he => by simp [tmplsOf, holess] at he
  | t :: ts, h, e, he => by
    simp only [tmplsOf, holess, List.mem_append] at he
    exact he.elim (holes_tmplOf hv t h.1 e) (holess_tmplsOf hv ts h.2 e)
end

theorem isExpansion_sym {K : Nat} {x : Sym} {c : Core} (h : IsExpansion mt K (.sym x) c) : c = .var x := by
  obtain ⟨k, k', _, t, _⟩ := h
  obtain ⟨N, h1⟩ := t.run
  obtain ⟨M, h2⟩ := (runs_sym (mt := mt) (x := x) (k := k))
  have a := h1 (N + M) (by omega)
  have b := h2 (N + M) (by omega)
  rw [a] at b
  exact form_sym (by simpa using congrArg Prod.fst (Option.some.inj b))

/-! ### what the expansion does -/

/-- the variables with their numbers, the latest first -/
def bound (vs : List Sym) (n : Int) (env : Env) : Env :=
  match vs with
  | [] => env
  | x :: r => bound r (n + 1) ((x, .int n) :: env)

theorem find_bound_not {x : Sym} : ∀ (vs : List Sym) (n : Int) (env : Env), x ∉ vs → find x (bound vs n env) = find x env
  | [], _, _, _ => rfl
  | y :: r, n, env, h => by
    rw [bound, find_bound_not r _ _ (fun hm => h (by simp [hm])), find, if_neg (fun e => h (by simp [e]))]

theorem find_bound {x : Sym} : ∀ (vs : List Sym) (n : Int) (env : Env), vs.Nodup → x ∈ vs →
    find x (bound vs n env) = some (.int (n + vs.idxOf x))
  | [], _, _, _, h => by cases h
  | y :: r, n, env, hn, h => by
    rw [List.nodup_cons] at hn
    by_cases e : y = x
    · subst e
      rw [bound, find_bound_not r _ _ hn.1, find, if_pos rfl]
      simp
    · have hr : x ∈ r := by
        rcases List.mem_cons.mp h with h | h
        · exact absurd h.symm e
        · exact h
      rw [bound, find_bound r _ _ hn.2 hr, List.idxOf_cons]
      have e' : (y == x) = false := by simp [e]
      simp only [e', cond_false, Int.natCast_add, Option.some.injEq, Val.int.injEq]
      omega

mutual
theorem fill {K : Nat} {vs : List Sym} (hn : vs.Nodup) (n : Int) (env : Env) : ∀ (t : Scheme) (tc : Tmpl Core), Scheme.over vs t →
    TmplExpansion mt K (tmplOf t) tc → ∀ (w : World W) v w',
      EvalTmpl E (bound vs n env) w tc v w' ↔ v = Scheme.copy vs n t ∧ w' = w
  | .atom d, tc, h, hx, w, v, w' => by
    cases hx
    constructor
    · intro h; cases h; exact ⟨rfl, rfl⟩
    · rintro ⟨rfl, rfl⟩; exact .atom ..
  | .hole x, tc, h, hx, w, v, w' => by
    cases hx with
    | hole hx =>
      obtain rfl := isExpansion_sym hx
      have hf := find_bound vs n env hn (show x ∈ vs from h)
      constructor
      · intro h
        cases h with
        | hole _ _ _ _ h => exact (eval_var_local hf).mp h
      · intro h
        exact .hole _ _ _ _ ((eval_var_local hf).mpr h)
  | .list t ts, tc, h, hx, w, v, w' => by
    cases hx with
    | list h1 h2 =>
      constructor
      · intro h'
        cases h' with
        | list _ _ _ v vs' w1 _ e1 e2 =>
          obtain ⟨rfl, rfl⟩ := (fill hn n env t _ h.1 h1 _ _ _).mp e1
          obtain ⟨rfl, rfl⟩ := (fills hn n env ts _ h.2 h2 _ _ _).mp e2
          exact ⟨rfl, rfl⟩
      · rintro ⟨rfl, rfl⟩
        exact .list _ _ _ _ _ _ _ ((fill hn n env t _ h.1 h1 _ _ _).mpr ⟨rfl, rfl⟩) ((fills hn n env ts _ h.2 h2 _ _ _).mpr ⟨rfl, rfl⟩)
theorem fills {K : Nat} {vs : List Sym} (hn : vs.Nodup) (n : Int) (env : Env) : ∀ (ts : List Scheme) (tcs : List (Tmpl Core)),
    Scheme.overs vs ts → TmplExpansions mt K (tmplsOf ts) tcs → ∀ (w : World W) us w',
      EvalTmpls E (bound vs n env) w tcs us w' ↔ us = Scheme.copies vs n ts ∧ w' = w
  | [], tcs, _, hx, w, us, w' => by
    cases hx
    constructor
    · intro h; cases h; exact ⟨rfl, rfl⟩
    · rintro ⟨rfl, rfl⟩; exact .nil _
  | t :: ts, tcs, h, hx, w, us, w' => by
    cases hx with
    | cons h1 h2 =>
      constructor
      · intro h'
        cases h' with
        | cons _ _ _ v vs' w1 _ e1 e2 =>
          obtain ⟨rfl, rfl⟩ := (fill hn n env t _ h.1 h1 _ _ _).mp e1
          obtain ⟨rfl, rfl⟩ := (fills hn n env ts _ h.2 h2 _ _ _).mp e2
          exact ⟨rfl, rfl⟩
      · rintro ⟨rfl, rfl⟩
        exact .cons _ _ _ _ _ _ _ ((fill hn n env t _ h.1 h1 _ _ _).mpr ⟨rfl, rfl⟩) ((fills hn n env ts _ h.2 h2 _ _ _).mpr ⟨rfl, rfl⟩)
end

theorem eval_tvar (hE : Adds E) {env : Env} {w : World W} {n : Int} (hw : Counts w n) (ht : find (.named "tvar") env = none) (v : Val)
    (w' : World W) : Eval E env w (.app (.var (.named "tvar")) []) v w' ↔ v = .int n ∧ w' = w.set tvarVar (.int (n + 1)) := by
  have h : Eval E env w (.app (.var (.named "tvar")) []) (.int n) (w.set tvarVar (.int (n + 1))) := by
    refine .app _ _ _ _ tvarFn [] _ w w _ (by simp [Core.primOf, primArity]) (.global _ _ _ _ ht hw.1) (.nil _ _) (.clo _ _ _ _ _ _ _ rfl ?_)
    refine .bind _ _ _ _ _ (.int n) _ w _ (.global _ _ _ _ rfl hw.2) (.seq _ _ _ _ (.int (n + 1)) _ (w.set tvarVar (.int (n + 1))) _ ?_
      (.local _ _ _ _ (by simp [find])))
    refine .prim _ _ _ _ "set" [.sym tvarVar, .int (n + 1)] _ w _ (by simp [Core.primOf, find, primArity])
      (.cons _ _ _ _ _ _ w _ (.quote _ _ _) (.cons _ _ _ _ _ _ w _ ?_ (.nil _ _))) (.prim _ _ _ _ _ rfl (by simp [primApply]))
    refine .prim _ _ _ _ "+" [.int n, .int 1] _ w _ (by simp [Core.primOf, find, primArity])
      (.cons _ _ _ _ _ _ w _ (.local _ _ _ _ (by simp [find])) (.cons _ _ _ _ _ _ w _ (.lit _ _ (.int 1)) (.nil _ _))) (.prim _ _ _ _ _ rfl ?_)
    have := hE n 1 w.rest
    simp [primApply, outside, this]
  constructor
  · intro h'
    obtain ⟨a, b⟩ := eval_det h' h
    exact ⟨a, b⟩
  · rintro ⟨rfl, rfl⟩; exact h

theorem World.set_set (w : World W) (x : Sym) (a b : Val) : (w.set x a).set x b = w.set x b := by
  simp only [Spec.Lang.World.set, Spec.Lang.World.mk.injEq, and_true]
  funext y
  split <;> rfl

theorem World.set_same {w : World W} {x : Sym} {a : Val} (h : w.globals x = some a) : w.set x a = w := by
  cases w
  simp only [Spec.Lang.World.set, Spec.Lang.World.mk.injEq, and_true]
  funext y
  split
  · rename_i e; rw [e]; exact h.symm
  · rfl

theorem counts_set {w : World W} {n : Int} (h : Counts w n) (m : Int) : Counts (w.set tvarVar (.int m)) m := by
  refine ⟨?_, by simp [Spec.Lang.World.set]⟩
  simp only [Spec.Lang.World.set]
  rw [if_neg (by decide)]
  exact h.1

/-- the nested bindings -/
def nest : List Sym → Core → Core
  | [], c => c
  | x :: r, c => .bind x (.app (.var (.named "tvar")) []) (nest r c)

theorem eval_nest (hE : Adds E) {c : Core} {v : Val} {w' : World W} : ∀ (vs : List Sym) (env : Env) (w : World W) (n : Int), Counts w n →
    find (.named "tvar") env = none → .named "tvar" ∉ vs →
    (Eval E env w (nest vs c) v w' ↔ Eval E (bound vs n env) (w.set tvarVar (.int (n + vs.length))) c v w')
  | [], env, w, n, hw, _, _ => by
    have e : w.set tvarVar (.int (n + ([] : List Sym).length)) = w := World.set_same (by simpa using hw.2)
    rw [e]; exact Iff.rfl
  | x :: r, env, w, n, hw, ht, hv => by
    have hx : x ≠ .named "tvar" := fun e => hv (by simp [e])
    have ih := eval_nest hE (c := c) (v := v) (w' := w') r ((x, .int n) :: env) _ (n + 1) (counts_set hw (n + 1))
      (by rw [find, if_neg hx]; exact ht) (fun h => hv (by simp [h]))
    rw [World.set_set] at ih
    have el : n + 1 + (r.length : Int) = n + ((x :: r).length : Int) := by simp only [List.length_cons, Int.natCast_add]; omega
    rw [el] at ih
    rw [nest, eval_bind]
    constructor
    · rintro ⟨u, w1, h1, h2⟩
      obtain ⟨rfl, rfl⟩ := (eval_tvar hE hw ht _ _).mp h1
      exact ih.mp h2
    · intro h
      exact ⟨_, _, (eval_tvar hE hw ht _ _).mpr ⟨rfl, rfl⟩, ih.mpr h⟩

theorem not_special_tvar (hs : Std mt) (hf : HasForall mt) : ¬ special mt (.named "tvar") := by
  rintro (h | h | h)
  · simp at h
  · rw [hf.tvar] at h; simp at h
  · rw [hs.protect] at h; cases h

theorem turns_tvar (hs : Std mt) (hf : HasForall mt) (k : Nat) : Turns mt (.list [kw "tvar"]) k (.app (.var (.named "tvar")) []) k :=
  turns_app_sym hs (not_special_tvar hs hf) .nil

theorem turns_nest (hs : Std mt) (hf : HasForall mt) {b : Datum} {k k' : Nat} {cb : Core} (hb : Turns mt b k cb k') :
    ∀ vs : List Sym, Turns mt (letForm (vs.map fun x => (x, .list [kw "tvar"])) b) k (nest vs cb) k'
  | [] => hb
  | x :: r => turns_bind hs (turns_tvar hs hf k) (turns_nest hs hf hb r)

theorem turns_let (hs : Std mt) {bs : List (Sym × Datum)} {b : Datum} {k k' : Nat} {c : Core} (t : Turns mt (letForm bs b) k c k') :
    Turns mt (.cons (kw "let") (.list (letOperands bs b))) k c k' := by
  by_cases he : letForm bs b = .cons (kw "let") (.list (letOperands bs b))
  · rw [← he]; exact t
  · refine turns_std hs (by decide) (by decide) rfl (g := fun e => (cdr e).bind rewriteLet) ?_ he t
    simpa [cdr] using rewriteLet_list bs b

/-! ### the property -/

/-- C105 (a). For all lists of different variables (not named `tvar` or `cons`) and all types made of names, variables and lists: the form
`(forall (v1 … vn) type)` is expanded, and evaluating it anywhere where `tvar` is the function of the library and the next variable is `m` has exactly
one result: the type, with the numbers m, m+1, … in the places of v1, v2, … and everything else as written. Afterwards the next variable is m + n, and nothing
else has changed. The full claim is about all types and all names: (c), (d). -/
theorem C105_copy_partial (hs : Std mt) (hf : HasForall mt) (vs : List Sym) (hn : vs.Nodup) (hv : ∀ s ∈ ["tvar", "cons"], Sym.named s ∉ vs)
    (t : Scheme) (ht : Scheme.over vs t) (k : Nat) (hk : ∀ x ∈ vs, ∀ n, k ≤ n → x ≠ .gen n) :
    ∃ c k', Turns mt (forallForm vs t) k c k' ∧
      ∀ {W : Type} (E : Ext W) (env : Env) (w : World W) (m : Int), Adds E → Counts w m →
        find (.named "tvar") env = none → find (.named "cons") env = none →
        ∀ v w', Eval E env w c v w' ↔ v = Scheme.copy vs m t ∧ w' = w.set tvarVar (.int (m + vs.length)) := by
  obtain ⟨cb, k', tc, tb, -, xt, ev⟩ := C44_quasi_partial (K := k) hs (tmplOf t) (tmplOf_ok t ht) (holes_tmplOf hk t ht) k (Nat.le_refl k)
  have tl := turns_let hs (turns_nest hs hf tb vs)
  refine ⟨nest vs cb, k', ⟨runs_macro ⟨by rw [hs.protect]; simp, by simp, by simp⟩ hf.isMacro ⟨0, fun n _ => ?_⟩ ?_ tl.run, tl.le, tl.ok⟩, ?_⟩
  · have := forall_expands ht
    simp only [forallForm, Datum.list] at this
    simp [this, liftM, monadLift, MonadLift.monadLift, StateT.lift, Datum.list]
  · simp
  · intro W E env w m hE hw h1 h2 v w'
    rw [eval_nest hE vs env w m hw h1 (hv _ (by simp)), ev _ _ _ _ _ (by rw [find_bound_not _ _ _ (hv _ (by simp))]; exact h2),
      fill hn m env t tc ht xt]

mutual
theorem numbers_copy {vs : List Sym} {m : Int} : ∀ (t : Scheme), Scheme.over vs t → ∀ i ∈ (Scheme.copy vs m t).numbers, m ≤ i ∧ i < m + vs.length
  | .atom d, h, i, hi => by
    rcases h with rfl | ⟨x, rfl, -⟩ <;> simp [Scheme.copy, Datum.val, Val.numbers] at hi
  | .hole x, h, i, hi => by
    simp only [Scheme.copy, Val.numbers, List.mem_singleton] at hi
    have := List.idxOf_lt_length_of_mem (show x ∈ vs from h)
    omega
  | .list t ts, h, i, hi => by
    simp only [Scheme.copy, Val.numbers, List.mem_append] at hi
    exact hi.elim (numbers_copy t h.1 i) (numbers_copies ts h.2 i)
theorem numbers_copies {vs : List Sym} {m : Int} : ∀ (ts : List Scheme), Scheme.overs vs ts →
    ∀ i ∈ (listVal (Scheme.copies vs m ts) .nil).numbers, m ≤ i ∧ i < m + vs.length
  | [], _, i, hi => by simp [Scheme.copies, listVal, Val.numbers] at hi
  | t :: ts, h, i, hi => by
    simp only [Scheme.copies, listVal, Val.numbers, List.mem_append] at hi
    exact hi.elim (numbers_copy t h.1 i) (numbers_copies ts h.2 i)
end

/-- C105 (b). Two types made one after the other, from the same scheme or from different ones, have no variable in common, and neither has a variable that was
made before. -/
theorem C105_new_partial (hs : Std mt) (hf : HasForall mt) (vs us : List Sym) (hn : vs.Nodup) (hm : us.Nodup)
    (hv : ∀ s ∈ ["tvar", "cons"], Sym.named s ∉ vs) (hu : ∀ s ∈ ["tvar", "cons"], Sym.named s ∉ us) (t t' : Scheme) (ht : Scheme.over vs t)
    (ht' : Scheme.over us t') (k k1 : Nat) (hk : ∀ x ∈ vs, ∀ n, k ≤ n → x ≠ .gen n) (hk1 : ∀ x ∈ us, ∀ n, k1 ≤ n → x ≠ .gen n) :
    ∃ c c' k' k1', Turns mt (forallForm vs t) k c k' ∧ Turns mt (forallForm us t') k1 c' k1' ∧
      ∀ {W : Type} (E : Ext W) (env : Env) (w : World W) (m : Int), Adds E → Counts w m →
        find (.named "tvar") env = none → find (.named "cons") env = none →
        ∀ v v' w1 w2, Eval E env w c v w1 → Eval E env w1 c' v' w2 →
          (∀ i ∈ v.numbers, m ≤ i) ∧ (∀ i ∈ v'.numbers, m ≤ i) ∧ ∀ i ∈ v.numbers, i ∉ v'.numbers := by
  obtain ⟨c, k', tc, ev⟩ := C105_copy_partial hs hf vs hn hv t ht k hk
  obtain ⟨c', k1', tc', ev'⟩ := C105_copy_partial hs hf us hm hu t' ht' k1 hk1
  refine ⟨c, c', k', k1', tc, tc', ?_⟩
  intro W E env w m hE hw h1 h2 v v' w1 w2 e1 e2
  obtain ⟨rfl, rfl⟩ := (ev E env w m hE hw h1 h2 _ _).mp e1
  obtain ⟨rfl, rfl⟩ := (ev' E env _ _ hE (counts_set hw _) h1 h2 _ _).mp e2
  refine ⟨fun i hi => (numbers_copy t ht i hi).1, fun i hi => ?_, fun i hi hi' => ?_⟩
  · have := (numbers_copy t' ht' i hi).1
    omega
  · have a := (numbers_copy t ht i hi).2
    have b := (numbers_copy t' ht' i hi').1
    omega

/-- C105 (c), false for types that mention a type variable made before: the expansion stops. -/
theorem C105_made_before_wrong (tvlist : Datum) (n : Int) :
    replaceTvlist tvlist (.list [kw "list", .int n]) = none ∧
    ∀ (h : Datum), forallMacro (.list [h, tvlist, .list [kw "list", .int n]]) = none := by
  have h : replaceTvlist tvlist (.list [kw "list", .int n]) = none := by simp [replaceTvlist, Datum.list]
  refine ⟨h, fun x => ?_⟩
  have e1 : cadr (.list [x, tvlist, .list [kw "list", .int n]]) = some tvlist := rfl
  have e2 : caddr (.list [x, tvlist, .list [kw "list", .int n]]) = some (.list [kw "list", .int n]) := rfl
  simp only [forallMacro, e1, e2, h, Option.bind_eq_bind, Option.bind_some]
  cases appendTvar tvlist .nil <;> rfl

/-- `(tvar -> a)`, both of them variables -/
def capturing : Scheme := .list (.hole (.named "tvar")) [.atom (kw "->"), .hole (.named "a")]

/-- C105 (d), false for a variable named like the function: `(forall (tvar a) (tvar -> a))` is expanded, but has no value. -/
theorem C105_tvar_wrong (hs : Std mt) (hf : HasForall mt) (k : Nat) :
    Scheme.over [.named "tvar", .named "a"] capturing ∧
    ∃ c k', Turns mt (forallForm [.named "tvar", .named "a"] capturing) k c k' ∧
      ∀ {W : Type} (E : Ext W) (env : Env) (w : World W) (m : Int), Adds E → Counts w m → find (.named "tvar") env = none →
        ∀ v w', ¬ Eval E env w c v w' := by
  have ht : Scheme.over [.named "tvar", .named "a"] capturing := by simp [capturing, Scheme.over, Scheme.overs]
  refine ⟨ht, ?_⟩
  have hk : ∀ x ∈ [Sym.named "tvar", .named "a"], ∀ n, k ≤ n → x ≠ .gen n := by
    intro x hx n _; simp at hx; rcases hx with rfl | rfl <;> simp
  obtain ⟨cb, k', tc, tb, -, xt, ev⟩ := C44_quasi_partial (K := k) hs (tmplOf capturing) (tmplOf_ok _ ht) (holes_tmplOf hk _ ht) k (Nat.le_refl k)
  have tl := turns_let hs (turns_nest hs hf tb [.named "tvar", .named "a"])
  refine ⟨_, k', ⟨runs_macro ⟨by rw [hs.protect]; simp, by simp, by simp⟩ hf.isMacro ⟨0, fun n _ => ?_⟩ ?_ tl.run, tl.le, tl.ok⟩, ?_⟩
  · have := forall_expands ht
    simp only [forallForm, Datum.list] at this
    simp [this, liftM, monadLift, MonadLift.monadLift, StateT.lift, Datum.list]
    rfl
  · simp
  · intro W E env w m hE hw h1 v w' h
    rw [nest, eval_bind] at h
    obtain ⟨u, w1, h2, h3⟩ := h
    obtain ⟨rfl, rfl⟩ := (eval_tvar hE hw h1 _ _).mp h2
    rw [nest, eval_bind] at h3
    obtain ⟨u, w2, h4, -⟩ := h3
    have hf' : find (.named "tvar") ((.named "tvar", .int m) :: env) = some (.int m) := by simp [find]
    cases h4 with
    | prim _ _ _ _ p _ _ _ _ hp => simp [Core.primOf, find] at hp
    | app _ _ _ _ g us _ w3 w4 _ _ e1 e2 e3 =>
      obtain ⟨rfl, rfl⟩ := (eval_var_local hf').mp e1
      obtain ⟨rfl, rfl⟩ := evalArgs_nil.mp e2
      cases e3 <;> simp_all [Val.arity]

/-! ### examples -/

def forallMacros : Macros :=
  { initMacros with fn := fun x => if x = .named "forall" then some fun _ e => liftM (forallMacro e) else initMacros.fn x }

theorem forallMacros_std : Std forallMacros where
  std := by
    intro s f h
    have : s ≠ "forall" := by rintro rfl; cases h
    simp only [forallMacros, Sym.named.injEq, this, if_false]
    exact initMacros_std.std s f h
  core := by
    intro s hs
    have : s ≠ "forall" := by rintro rfl; simp at hs
    simp only [forallMacros, Sym.named.injEq, this, if_false]
    exact initMacros_std.core s hs
  gen := fun n => by simp only [forallMacros, reduceCtorEq, if_false]; exact initMacros_std.gen n
  protect := rfl

theorem forallMacros_has : HasForall forallMacros := ⟨by simp [forallMacros], by simp [forallMacros, initMacros, stdMacro]⟩

/-- `(a -> ((list b) -> a))`, of two variables -/
def schemeExample : Scheme :=
  .list (.hole (.named "a")) [.atom (kw "->"),
    .list (.list (.atom (kw "list")) [.hole (.named "b")]) [.atom (kw "->"), .hole (.named "a")]]

/-- a world in which `+` adds, and one in which the next variable is 1000 -/
def adding : Ext Unit := ⟨fun p vs w => match p, vs with | "+", [.int a, .int b] => some (.int (a + b), w) | _, _ => none, fun _ _ _ => none⟩
def thousand : World Unit :=
  ⟨fun x => if x = .named "tvar" then some tvarFn else if x = tvarVar then some (.int 1000) else none, ()⟩

/-- non-vacuity: the value is `(1000 -> ((list 1001) -> 1000))`, and then the next variable is 1002 -/
example : ∃ c k', Turns forallMacros (forallForm [.named "a", .named "b"] schemeExample) 1 c k' ∧
    Eval adding [] thousand c (listVal [.int 1000, .sym (.named "->"),
      listVal [listVal [.sym (.named "list"), .int 1001] .nil, .sym (.named "->"), .int 1000] .nil] .nil) (thousand.set tvarVar (.int 1002)) := by
  obtain ⟨c, k', t, ev⟩ := C105_copy_partial forallMacros_std forallMacros_has [.named "a", .named "b"] (by decide) (by decide) schemeExample
    (by simp [schemeExample, Scheme.over, Scheme.overs]) 1 (by intro x hx n _; simp at hx; rcases hx with rfl | rfl <;> simp)
  exact ⟨c, k', t, (ev adding [] thousand 1000 (fun _ _ _ => rfl) ⟨by simp [thousand], by simp [thousand, tvarVar]⟩ rfl rfl _ _).mpr ⟨rfl, rfl⟩⟩

end Cora.Macro
