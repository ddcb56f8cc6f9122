import Verif.Model.Interp
import Verif.Spec.Interp
import Verif.Lemmas.Lang
/-
C40: the interpreter agrees with the language.
-/
open Spec.Lang
open Cora.Macro (lookupVar Exports)
namespace Cora.Interp
variable {W : Type}

/-- the same value: data are equal; a function of the program has the same parameters and the same text, and its free
variables mean the same -/
inductive Same : Val → Spec.Lang.Val → Prop where
  | int (n) : Same (.int n) (.int n)
  | bool (b) : Same (.bool b) (.bool b)
  | nil : Same .nil .nil
  | str (s) : Same (.str s) (.str s)
  | sym (x) : Same (.sym x) (.sym x)
  | cons {a d a' d'} : Same a a' → Same d d' → Same (.cons a d) (.cons a' d')
  | prim (p) : Same (.prim p) (.prim p)
  | native (id n) : Same (.native id n) (.native id n)
  | pap {f f' args args'} : Same f f' → args.length = args'.length →
      (∀ i (h : i < args.length) (h' : i < args'.length), Same args[i] args'[i]) → Same (.pap f args) (.pap f' args')
  | clo {ps : List Sym} {b : Core} {env : Env} {env' : Spec.Lang.Env} : b.noKeyword →
      (∀ x ∈ (Core.lam ps b).fv, (lookup x env).isSome = (find x env').isSome) →
      (∀ x ∈ (Core.lam ps b).fv, ∀ u v, lookup x env = some u → find x env' = some v → Same u v) →
      Same (.clo (.list (ps.map .sym)) b.form env) (.clo ps b env')

/-- both have no value or both the same -/
inductive SameOpt : Option Val → Option Spec.Lang.Val → Prop where
  | none : SameOpt none none
  | some {u v} : Same u v → SameOpt (some u) (some v)

/-- lists of the same values -/
inductive Sames : List Val → List Spec.Lang.Val → Prop where
  | nil : Sames [] []
  | cons {u v us vs} : Same u v → Sames us vs → Sames (u :: us) (v :: vs)

/-- the same state: each name means the same global variable, and where a primitive's variable has a value it is the
primitive -/
structure SameWorld (I : Setting W) (w : World W) (w' : Spec.Lang.World W) : Prop where
  rest : w.rest = w'.rest
  globals : ∀ x, SameOpt (w.globals (lookupVar I.ex x "" I.imp)) (w'.globals x)
  prims : ∀ p, (primArity p).isSome → ∀ v, w'.globals (.named p) = some v → v = .prim p

/-- the same result -/
inductive SameResult (I : Setting W) : Option (Val × World W) → Option (Spec.Lang.Val × Spec.Lang.World W) → Prop where
  | none : SameResult I none none
  | some {u v w w'} : Same u v → SameWorld I w w' → SameResult I (some (u, w)) (some (v, w'))

/-- the interpreter and the language agree about what is outside of both; the variables that are not to be set contain
the primitives and the names through which exports are seen -/
structure Agree (I : Setting W) (E : Ext W) : Prop where
  prim : ∀ p us vs w, Sames us vs → (∃ u v r, I.prim p us w = some (u, r) ∧ E.prim p vs w = some (v, r) ∧ Same u v) ∨
    (I.prim p us w = none ∧ E.prim p vs w = none)
  native : ∀ id us vs w w', Sames us vs → SameWorld I w w' → SameResult I (I.native id us w) (E.native id vs w')
  primFixed : ∀ p, (primArity p).isSome → I.fixed (.named p) = true
  nameFixed : ∀ x, I.fixed x = false → ∀ y, lookupVar I.ex y "" I.imp = x ↔ y = x

theorem same_datum : ∀ d : Datum, Same (ofDatum d) d.val
  | .int n => .int n
  | .bool b => .bool b
  | .nil => .nil
  | .str s => .str s
  | .sym x => .sym x
  | .cons a d => .cons (same_datum a) (same_datum d)

theorem same_toDatum {u : Val} {v : Spec.Lang.Val} (h : Same u v) : toDatum u = v.datum := by
  induction h with
  | @cons a d a' d' _ _ ih1 ih2 =>
    simp only [toDatum, Val.datum, ih1, ih2]
    cases a'.datum <;> cases d'.datum <;> rfl
  | _ => rfl

theorem elems_list : ∀ l : List Datum, elems (.list l) = l
  | [] => rfl
  | x :: r => by simp [Datum.list, elems, elems_list r]

theorem outside_same {I : Setting W} {E : Ext W} (hA : Agree I E) {p us vs w w'} (h : Sames us vs) (hw : SameWorld I w w') :
    SameResult I (outside I p us w) (Spec.Lang.outside E p vs w') := by
  unfold outside Spec.Lang.outside
  rcases hA.prim p us vs w.rest h with ⟨u, v, r, h1, h2, h3⟩ | ⟨h1, h2⟩
  · rw [h1, ← hw.rest, h2]
    exact .some h3 ⟨rfl, hw.globals, hw.prims⟩
  · rw [h1, ← hw.rest, h2]
    exact .none

theorem set_same {I : Setting W} {E : Ext W} (hA : Agree I E) {w : World W} {w' : Spec.Lang.World W} {x u v}
    (hf : I.fixed x = false) (h : Same u v) (hw : SameWorld I w w') : SameWorld I (setGlobal w x u) (w'.set x v) := by
  refine ⟨hw.rest, fun y => ?_, fun p hp z hz => ?_⟩
  · simp only [setGlobal, World.set, hA.nameFixed x hf y]
    split
    · exact .some h
    · exact hw.globals y
  · simp only [World.set] at hz
    split at hz
    · rename_i he
      have := hA.primFixed p hp
      rw [he, hf] at this
      cases this
    · exact hw.prims p hp z hz

theorem prim_other (I : Setting W) {p : String} {args : List Val} {w : World W}
    (h : p ∉ ["set", "car", "cdr", "cons", "cons?", "=", "not", "symbol?", "integer?", "string?"]) :
    prim I p args w = outside I p args w := by
  simp only [List.mem_cons, List.not_mem_nil, or_false, not_or] at h
  unfold prim
  split <;> simp_all

theorem primApply_other (E : Ext W) {p : String} {args : List Spec.Lang.Val} {w : Spec.Lang.World W}
    (h : p ∉ ["set", "car", "cdr", "cons", "cons?", "=", "not", "symbol?", "integer?", "string?"]) :
    primApply E p args w = Spec.Lang.outside E p args w := by
  simp only [List.mem_cons, List.not_mem_nil, or_false, not_or] at h
  unfold primApply
  split <;> simp_all

theorem prim_two (I : Setting W) {p : String} {a b : Val} {r : List Val} {w : World W}
    (h : p ∈ ["cons?", "symbol?", "integer?", "string?"]) : 
    prim I p (a :: b :: r) w = outside I p (a :: b :: r) w := by
  simp only [List.mem_cons, List.not_mem_nil, or_false] at h
  unfold prim
  rcases h with rfl | rfl | rfl | rfl <;> split <;> simp_all

theorem primApply_two (E : Ext W) {p : String} {a b : Spec.Lang.Val} {r : List Spec.Lang.Val} {w : Spec.Lang.World W}
    (h : p ∈ ["cons?", "symbol?", "integer?", "string?"]) : 
    primApply E p (a :: b :: r) w = Spec.Lang.outside E p (a :: b :: r) w := by
  simp only [List.mem_cons, List.not_mem_nil, or_false] at h
  unfold primApply
  rcases h with rfl | rfl | rfl | rfl <;> split <;> simp_all

theorem sames_length {us vs} (h : Sames us vs) : us.length = vs.length := by
  induction h <;> simp_all

theorem named_cases {p : String}
    (hp : ¬ p ∉ ["set", "car", "cdr", "cons", "cons?", "=", "not", "symbol?", "integer?", "string?"]) :
    p = "set" ∨ p = "car" ∨ p = "cdr" ∨ p = "cons" ∨ p = "cons?" ∨ p = "=" ∨ p = "not" ∨ p = "symbol?" ∨ p = "integer?" ∨
      p = "string?" := by
  simpa only [Classical.not_not, List.mem_cons, List.not_mem_nil, or_false] using hp

theorem prim_same0 {I : Setting W} {E : Ext W} (hA : Agree I E) {p w w'} (hw : SameWorld I w w')
    (hp : ¬ p ∉ ["set", "car", "cdr", "cons", "cons?", "=", "not", "symbol?", "integer?", "string?"]) :
    SameResult I (prim I p [] w) (primApply E p [] w') := by
  rcases named_cases hp with rfl | rfl | rfl | rfl | rfl | rfl | rfl | rfl | rfl | rfl <;> simp only [prim, primApply] <;>
    first
    | exact .none
    | exact outside_same hA .nil hw

theorem prim_same1 {I : Setting W} {E : Ext W} (hA : Agree I E) {p u v w w'} (h1 : Same u v) (hw : SameWorld I w w')
    (hp : ¬ p ∉ ["set", "car", "cdr", "cons", "cons?", "=", "not", "symbol?", "integer?", "string?"]) :
    SameResult I (prim I p [u] w) (primApply E p [v] w') := by
  rcases named_cases hp with rfl | rfl | rfl | rfl | rfl | rfl | rfl | rfl | rfl | rfl <;> cases h1 <;>
    simp only [prim, primApply] <;>
    first
    | exact .none
    | exact .some (.bool _) hw
    | exact .some (by assumption) hw
    | exact outside_same hA (.cons (by constructor <;> assumption) .nil) hw

theorem prim_same2 {I : Setting W} {E : Ext W} (hA : Agree I E) {p u v u2 v2 w w'} (h1 : Same u v) (h2 : Same u2 v2)
    (hw : SameWorld I w w') (hset : p ≠ "set")
    (hp : ¬ p ∉ ["set", "car", "cdr", "cons", "cons?", "=", "not", "symbol?", "integer?", "string?"]) :
    SameResult I (prim I p [u, u2] w) (primApply E p [v, v2] w') := by
  by_cases heq : p = "="
  · subst heq
    simp only [prim, primApply, same_toDatum h1, same_toDatum h2]
    cases v.datum <;> cases v2.datum
    · exact outside_same hA (.cons h1 (.cons h2 .nil)) hw
    · exact .some (.bool _) hw
    · exact .some (.bool _) hw
    · exact .some (.bool _) hw
  · by_cases ho : p ∈ ["cons?", "symbol?", "integer?", "string?"]
    · rw [prim_two I ho, primApply_two E ho]
      exact outside_same hA (.cons h1 (.cons h2 .nil)) hw
    · rcases named_cases hp with rfl | rfl | rfl | rfl | rfl | rfl | rfl | rfl | rfl | rfl <;>
        first
        | exact absurd rfl hset
        | exact absurd rfl heq
        | exact absurd (by decide) ho
        | (simp only [prim, primApply]; exact .none)
        | (simp only [prim, primApply]; exact .some (.cons h1 h2) hw)

theorem prim_same3 {I : Setting W} {E : Ext W} (hA : Agree I E) {p u v u2 v2 u3 v3 us vs w w'} (h1 : Same u v)
    (h2 : Same u2 v2) (h3 : Same u3 v3) (h : Sames us vs) (hw : SameWorld I w w')
    (hp : ¬ p ∉ ["set", "car", "cdr", "cons", "cons?", "=", "not", "symbol?", "integer?", "string?"]) :
    SameResult I (prim I p (u :: u2 :: u3 :: us) w) (primApply E p (v :: v2 :: v3 :: vs) w') := by
  by_cases ho : p ∈ ["cons?", "symbol?", "integer?", "string?"]
  · rw [prim_two I ho, primApply_two E ho]
    exact outside_same hA (.cons h1 (.cons h2 (.cons h3 h))) hw
  · rcases named_cases hp with rfl | rfl | rfl | rfl | rfl | rfl | rfl | rfl | rfl | rfl <;>
    first
    | exact absurd (by decide) ho
    | (simp only [prim, primApply]; exact .none)
    | (simp only [prim, primApply]; exact outside_same hA (.cons h1 (.cons h2 (.cons h3 h))) hw)

/-- a primitive on the same arguments, except that setting a fixed variable traps -/
theorem prim_same {I : Setting W} {E : Ext W} (hA : Agree I E) {p us vs w w'} (h : Sames us vs) (hw : SameWorld I w w')
    (hs : ∀ x u, p = "set" → vs = [.sym x, u] → I.fixed x = false) :
    SameResult I (prim I p us w) (primApply E p vs w') := by
  by_cases hp : p ∉ ["set", "car", "cdr", "cons", "cons?", "=", "not", "symbol?", "integer?", "string?"]
  · rw [prim_other I hp, primApply_other E hp]
    exact outside_same hA h hw
  · rcases h with _ | ⟨h1, h⟩
    · exact prim_same0 hA hw hp
    · rcases h with _ | ⟨h2, h⟩
      · exact prim_same1 hA h1 hw hp
      · rcases h with _ | ⟨h3, h⟩
        · by_cases hset : p = "set"
          · subst hset
            cases h1 <;> simp only [prim, primApply] <;>
              first
              | exact .none
              | skip
            rw [hs _ _ rfl rfl]
            exact .some h2 (set_same hA (hs _ _ rfl rfl) h2 hw)
          · exact prim_same2 hA h1 h2 hw hset hp
        · exact prim_same3 hA h1 h2 h3 h hw hp

theorem SameOpt.isSome {a b} (h : SameOpt a b) : a.isSome = b.isSome := by cases h <;> rfl

/-- the variables mean the same -/
def SameEnv (xs : List Sym) (env : Env) (env' : Spec.Lang.Env) : Prop := ∀ x ∈ xs, SameOpt (lookup x env) (find x env')

theorem SameEnv.sub {xs ys : List Sym} {env env'} (h : SameEnv ys env env') (hs : ∀ x ∈ xs, x ∈ ys) : SameEnv xs env env' :=
  fun x hx => h x (hs x hx)

theorem SameEnv.cons {xs ys : List Sym} {x : Sym} {u v env env'} (h : SameEnv ys env env') (hu : Same u v)
    (hs : ∀ y ∈ xs, y ≠ x → y ∈ ys) : SameEnv xs ((.sym x, u) :: env) ((x, v) :: env') := by
  intro y hy
  simp only [lookup, find, Datum.sym.injEq]
  by_cases hx : y = x
  · subst hx
    simp only [if_true]
    exact .some hu
  · rw [if_neg hx, if_neg (fun h => hx h.symm)]
    exact h y (hs y hy hx)

theorem same_clo {ps : List Sym} {b : Core} {env : Env} {env' : Spec.Lang.Env} (hb : b.noKeyword)
    (h : SameEnv (Core.lam ps b).fv env env') : Same (.clo (.list (ps.map .sym)) b.form env) (.clo ps b env') := by
  refine .clo hb (fun x hx => ?_) (fun x hx u v hu hv => ?_)
  · exact (h x hx).isSome
  · have := h x hx
    rw [hu, hv] at this
    cases this
    assumption

theorem same_clo_env {ps : List Sym} {b : Core} {env : Env} {env' : Spec.Lang.Env}
    (h1 : ∀ x ∈ (Core.lam ps b).fv, (lookup x env).isSome = (find x env').isSome)
    (h2 : ∀ x ∈ (Core.lam ps b).fv, ∀ u v, lookup x env = some u → find x env' = some v → Same u v) :
    SameEnv (Core.lam ps b).fv env env' := by
  intro x hx
  have := h1 x hx
  generalize hl : lookup x env = a at this
  generalize hf : find x env' = c at this
  cases a <;> cases c <;> simp at this
  · exact .none
  · exact .some (h2 x hx _ _ hl hf)

theorem sameEnv_extend {b : Core} : ∀ (ps : List Sym) {us vs : _} {xs : List Sym} {env : Env} {env' : Spec.Lang.Env},
    Sames us vs → vs.length = ps.length → SameEnv xs env env' → (∀ y ∈ b.fv, y ∉ ps → y ∈ xs) →
    SameEnv b.fv (extend env (ps.map .sym) us) ((ps.zip vs).reverse ++ env')
  | [], us, vs, xs, env, env', h, hl, he, hs => by
    cases h
    · exact he.sub fun y hy => hs y hy (by simp)
    · simp at hl
  | p :: ps, us, vs, xs, env, env', h, hl, he, hs => by
    cases h with
    | nil => simp at hl
    | @cons u v us vs h1 h2 =>
      simp only [List.map_cons, extend, List.zip_cons_cons, List.reverse_cons, List.append_assoc, List.singleton_append]
      refine sameEnv_extend (b := b) ps (xs := p :: xs) h2 (by simpa using hl) (he.cons h1 fun y hy hne => ?_) fun y hy hn => ?_
      · simpa [hne] using hy
      · by_cases hp : y = p
        · simp [hp]
        · exact List.mem_cons_of_mem _ (hs y hy (by simp [hp, hn]))

theorem form_sym {f : Core} {x : Sym} (h : f.form = .sym x) : f = .var x := by
  cases f <;> simp [Core.form, Datum.list] at h
  · rename_i c
    cases c <;> simp [Const.datum] at h
  · rw [h]

/-- an application is not taken for another form -/
theorem eval_app_form (I : Setting W) (n : Nat) {f : Core} {args : List Core}
    (hk : ∀ k ∈ ["quote", "if", "do", "def", "let", "lambda"], f ≠ .var (.named k)) (env : Env) (w : World W) :
    eval I (n + 1) (Core.app f args).form env w = (do
      let (g, w1) ← eval I n f.form env w
      let (vs, w2) ← evalArgs I n (.list (Core.forms args)) env w1
      apply I n g vs w2) := by
  have hne : ∀ k ∈ ["quote", "if", "do", "def", "let", "lambda"], f.form ≠ .sym (.named k) := fun k hm h => hk k hm (form_sym h)
  have h1 := hne "quote" (by simp)
  have h2 := hne "if" (by simp)
  have h3 := hne "do" (by simp)
  have h4 := hne "def" (by simp)
  have h5 := hne "let" (by simp)
  have h6 := hne "lambda" (by simp)
  rw [Core.form, eval]
  all_goals (intros; simp_all)

theorem sames_append {a b c d} (h : Sames a b) (h' : Sames c d) : Sames (a ++ c) (b ++ d) := by
  induction h with
  | nil => exact h'
  | cons h1 _ ih => exact .cons h1 ih

theorem sames_get : ∀ {a : List Val} {b : List Spec.Lang.Val}, a.length = b.length →
    (∀ i (h : i < a.length) (h' : i < b.length), Same a[i] b[i]) → Sames a b
  | [], [], _, _ => .nil
  | x :: a, y :: b, hl, h => .cons (h 0 (by simp) (by simp)) (sames_get (by simpa using hl) fun i h1 h2 => by
      have := h (i + 1) (by simpa using h1) (by simpa using h2)
      simpa using this)
  | [], _ :: _, hl, _ => by simp at hl
  | _ :: _, [], hl, _ => by simp at hl

theorem sames_get' {a : List Val} {b : List Spec.Lang.Val} (h : Sames a b) :
    ∀ i (h : i < a.length) (h' : i < b.length), Same a[i] b[i] := by
  induction h with
  | nil => intro i h; simp at h
  | cons h1 _ ih =>
    intro i h h'
    cases i with
    | zero => exact h1
    | succ i => exact ih i (by simpa using h) (by simpa using h')

theorem sames_nil {a b} (h : Sames a b) : a = [] ↔ b = [] := by cases h <;> simp

theorem eval_lit_form (I : Setting W) (n : Nat) (c : Const) (env : Env) (w : World W) :
    eval I (n + 1) (Core.lit c).form env w = some (ofDatum c.datum, w) := by
  cases c <;> simp [Core.form, Const.datum, eval]

/-- what the interpreter returns is what the language says -/
theorem sound {I : Setting W} {E : Ext W} (hA : Agree I E) : ∀ n,
    (∀ (c : Core) (env : Env) (env' : Spec.Lang.Env) w w' u w1, c.noKeyword → SameEnv c.fv env env' → SameWorld I w w' →
      eval I n c.form env w = some (u, w1) →
      ∃ v w1', Plain.Eval E I.fixed env' w' c v w1' ∧ Same u v ∧ SameWorld I w1 w1') ∧
    (∀ (cs : List Core) (env : Env) (env' : Spec.Lang.Env) w w' us w1, Core.noKeywords cs → SameEnv (Core.fvs cs) env env' →
      SameWorld I w w' → evalArgs I n (.list (Core.forms cs)) env w = some (us, w1) →
      ∃ vs w1', Plain.EvalArgs E I.fixed env' w' cs vs w1' ∧ Sames us vs ∧ SameWorld I w1 w1') ∧
    (∀ f f' us vs w w' u w1, Same f f' → Sames us vs → SameWorld I w w' → apply I n f us w = some (u, w1) →
      ∃ v w1', Plain.Apply E I.fixed w' f' vs v w1' ∧ Same u v ∧ SameWorld I w1 w1') := by
  intro n
  induction n with
  | zero => exact ⟨by simp [eval], by simp [evalArgs], by simp [apply]⟩
  | succ n ih =>
    obtain ⟨ih1, ih2, ih3⟩ := ih
    refine ⟨?_, ?_, ?_⟩
    · intro c env env' w w' u w1 hc he hw h
      cases c with
      | lit c =>
        rw [eval_lit_form] at h
        cases h
        exact ⟨_, _, .lit _ _ _, same_datum _, hw⟩
      | quote d =>
        simp only [Core.form, Datum.list, eval] at h
        cases h
        exact ⟨_, _, .quote _ _ _, same_datum _, hw⟩
      | var x =>
        simp only [Core.form, eval] at h
        have hx := he x (by simp [Core.fv])
        generalize hl : lookup x env = a at hx h
        generalize hf : find x env' = b at hx
        cases hx with
        | some hs =>
          cases h
          exact ⟨_, _, .local _ _ _ _ hf, hs, hw⟩
        | none =>
          have hg := hw.globals x
          simp only at h
          generalize w.globals (lookupVar I.ex x "" I.imp) = a at hg h
          generalize hf' : w'.globals x = b at hg
          cases hg with
          | none => cases h
          | some hs =>
            cases h
            exact ⟨_, _, .global _ _ _ _ hf hf', hs, hw⟩
      | lam ps b =>
        simp only [Core.form, Datum.list, eval] at h
        cases h
        refine ⟨_, _, .lam _ _ _ _, same_clo hc ?_, hw⟩
        intro x hx
        rw [find_capture, if_pos hx]
        exact he x hx
      | ite a b c =>
        simp only [Core.form, Datum.list, eval, Option.bind_eq_bind, Option.bind_eq_some_iff] at h
        obtain ⟨⟨u1, w2⟩, h1, h2⟩ := h
        obtain ⟨v1, w2', e1, s1, sw⟩ := ih1 a env env' w w' u1 w2 hc.1 (he.sub (by simp [Core.fv]; grind)) hw h1
        by_cases ht : u1 = .bool true
        · subst ht
          cases s1
          obtain ⟨v, w1', e2, s2, sw2⟩ := ih1 b env env' w2 w2' u w1 hc.2.1 (he.sub (by simp [Core.fv]; grind)) sw h2
          exact ⟨v, w1', .then _ _ _ _ _ _ _ _ e1 e2, s2, sw2⟩
        · have h2' : eval I n c.form env w2 = some (u, w1) := by
            revert h2
            split
            · simp_all
            · exact id
          obtain ⟨v, w1', e2, s2, sw2⟩ := ih1 c env env' w2 w2' u w1 hc.2.2 (he.sub (by simp [Core.fv]; grind)) sw h2'
          exact ⟨v, w1', .else _ _ _ _ _ _ _ _ _ e1 (fun hv => by subst hv; cases s1; exact ht rfl) e2, s2, sw2⟩
      | seq a b =>
        simp only [Core.form, Datum.list, eval, Option.bind_eq_bind, Option.bind_eq_some_iff] at h
        obtain ⟨⟨u1, w2⟩, h1, h2⟩ := h
        obtain ⟨v1, w2', e1, s1, sw⟩ := ih1 a env env' w w' u1 w2 hc.1 (he.sub (by simp [Core.fv]; grind)) hw h1
        obtain ⟨v, w1', e2, s2, sw2⟩ := ih1 b env env' w2 w2' u w1 hc.2 (he.sub (by simp [Core.fv]; grind)) sw h2
        exact ⟨v, w1', .seq _ _ _ _ _ _ _ _ e1 e2, s2, sw2⟩
      | bind x a b =>
        simp only [Core.form, Datum.list, eval, Option.bind_eq_bind, Option.bind_eq_some_iff] at h
        obtain ⟨⟨u1, w2⟩, h1, h2⟩ := h
        obtain ⟨v1, w2', e1, s1, sw⟩ := ih1 a env env' w w' u1 w2 hc.1 (he.sub (by simp [Core.fv]; grind)) hw h1
        obtain ⟨v, w1', e2, s2, sw2⟩ := ih1 b _ ((x, v1) :: env') w2 w2' u w1 hc.2
          (he.cons s1 (by simp [Core.fv]; grind)) sw h2
        exact ⟨v, w1', .bind _ _ _ _ _ _ _ _ _ e1 e2, s2, sw2⟩
      | app f args =>
        rw [eval_app_form I n hc.1] at h
        simp only [Option.bind_eq_bind, Option.bind_eq_some_iff] at h
        obtain ⟨⟨g, w2⟩, h1, ⟨us, w3⟩, h2, h3⟩ := h
        obtain ⟨g', w2', e1, s1, sw1⟩ := ih1 f env env' w w' g w2 hc.2.1 (he.sub (by simp [Core.fv]; grind)) hw h1
        obtain ⟨vs, w3', e2, s2, sw2⟩ := ih2 args env env' w2 w2' us w3 hc.2.2 (he.sub (by simp [Core.fv]; grind)) sw1 h2
        obtain ⟨v, w1', e3, s3, sw3⟩ := ih3 g g' us vs w3 w3' u w1 s1 s2 sw2 h3
        cases hp : f.primOf env' with
        | none => exact ⟨v, w1', .app _ _ _ _ _ _ _ _ _ _ hp e1 e2 e3, s3, sw3⟩
        | some p =>
          have hf : f = .var (.named p) ∧ find (.named p) env' = none ∧ (primArity p).isSome := by
            unfold Core.primOf at hp
            split at hp
            · split at hp
              · cases hp
                rename_i h
                exact ⟨rfl, h⟩
              · cases hp
            · cases hp
          obtain ⟨rfl, hn, ha⟩ := hf
          cases e1 with
          | «local» _ _ _ _ hl => rw [hn] at hl; cases hl
          | global _ _ _ _ _ hg =>
            have := hw.prims p ha _ hg
            subst this
            exact ⟨v, w1', .prim _ _ _ _ _ _ _ _ _ hp hg e2 e3, s3, sw3⟩
    · intro cs env env' w w' us w1 hc he hw h
      cases cs with
      | nil =>
        simp only [Core.forms, Datum.list, evalArgs] at h
        cases h
        exact ⟨_, _, .nil _ _, .nil, hw⟩
      | cons c cs =>
        simp only [Core.forms, Datum.list, evalArgs, Option.bind_eq_bind, Option.bind_eq_some_iff] at h
        obtain ⟨⟨u, w2⟩, h1, ⟨us2, w3⟩, h2, h3⟩ := h
        cases h3
        obtain ⟨v, w2', e1, s1, sw1⟩ := ih1 c env env' w w' u w2 hc.1 (he.sub (by simp [Core.fvs]; grind)) hw h1
        obtain ⟨vs, w3', e2, s2, sw2⟩ := ih2 cs env env' w2 w2' us2 _ hc.2 (he.sub (by simp [Core.fvs]; grind)) sw1 h2
        exact ⟨_, _, .cons _ _ _ _ _ _ _ _ e1 e2, .cons s1 s2, sw2⟩
    · intro f f' us vs w w' u w1 hf hs hw h
      cases hf with
      | @clo ps b env env' hb h1 h2 =>
        simp only [apply, elems_list] at h
        split at h
        · rename_i hl
          have hlen := sames_length hs
          obtain ⟨v, w1', e, s, sw⟩ := ih1 b _ ((ps.zip vs).reverse ++ env') w w' u w1 hb
            (sameEnv_extend ps hs (by simpa [← hlen] using hl.1) (same_clo_env h1 h2) (by simp [Core.fv]; grind)) hw h
          exact ⟨v, w1', .clo _ _ _ _ _ _ _ (by simpa [← hlen] using hl.1) (by have := hl.1; simp at this; omega) e, s, sw⟩
        · cases h
      | prim p =>
        simp only [apply] at h
        split at h
        · rename_i hl
          have hg : ∀ x u, p = "set" → vs = [.sym x, u] → I.fixed x = false := by
            intro x u' hp hv
            subst hp hv
            cases hs with
            | cons s1 s =>
              cases s with
              | cons s2 s =>
                cases s
                cases s1
                simp only [prim] at h
                cases hfx : I.fixed x
                · rfl
                · simp [hfx] at h
          have := prim_same hA (p := p) hs hw hg
          rw [h] at this
          generalize hq : primApply E p vs w' = q at this
          cases this with
          | some s sw => exact ⟨_, _, .prim _ _ _ _ _ (by rw [← sames_length hs]; exact hl) hg hq, s, sw⟩
        · cases h
      | native id k =>
        simp only [apply] at h
        split at h
        · rename_i hl
          have := hA.native id us vs w w' hs hw
          rw [h] at this
          generalize hq : E.native id vs w' = q at this
          cases this with
          | some s sw => exact ⟨_, _, .native _ _ _ _ _ _ (by rw [← sames_length hs]; exact hl) hq, s, sw⟩
        · cases h
      | pap hf hl hg =>
        simp only [apply] at h
        split at h
        · cases h
        · rename_i hne
          obtain ⟨v, w1', e, s, sw⟩ := ih3 _ _ _ _ w w' u w1 hf (sames_append (sames_get hl hg) hs) hw h
          exact ⟨v, w1', .pap _ _ _ _ _ _ (fun hv => hne ((sames_nil hs).2 hv)) e, s, sw⟩
      | _ => simp [apply] at h

/-- what the interpreter makes of a form that has a value -/
def Returns (I : Setting W) (c : Core) (env' : Spec.Lang.Env) (w' : Spec.Lang.World W) (v : Spec.Lang.Val)
    (w1' : Spec.Lang.World W) : Prop :=
  ∀ (env : Env) (w : World W), c.noKeyword → SameEnv c.fv env env' → SameWorld I w w' →
    ∃ N u w1, Same u v ∧ SameWorld I w1 w1' ∧ ∀ n ≥ N, eval I n c.form env w = some (u, w1)

def ReturnsArgs (I : Setting W) (cs : List Core) (env' : Spec.Lang.Env) (w' : Spec.Lang.World W) (vs : List Spec.Lang.Val)
    (w1' : Spec.Lang.World W) : Prop :=
  ∀ (env : Env) (w : World W), Core.noKeywords cs → SameEnv (Core.fvs cs) env env' → SameWorld I w w' →
    ∃ N us w1, Sames us vs ∧ SameWorld I w1 w1' ∧ ∀ n ≥ N, evalArgs I n (.list (Core.forms cs)) env w = some (us, w1)

def ReturnsApply (I : Setting W) (w' : Spec.Lang.World W) (f' : Spec.Lang.Val) (vs : List Spec.Lang.Val) (v : Spec.Lang.Val)
    (w1' : Spec.Lang.World W) : Prop :=
  ∀ f us (w : World W), Same f f' → Sames us vs → SameWorld I w w' →
    ∃ N u w1, Same u v ∧ SameWorld I w1 w1' ∧ ∀ n ≥ N, apply I n f us w = some (u, w1)

theorem complete {I : Setting W} {E : Ext W} (hA : Agree I E) {c : Core} {env' w' v w1'}
    (h : Plain.Eval E I.fixed env' w' c v w1') : Returns I c env' w' v w1' := by
  refine Plain.Eval.rec (motive_1 := fun env' w' c v w1' _ => Returns I c env' w' v w1')
    (motive_2 := fun env' w' cs vs w1' _ => ReturnsArgs I cs env' w' vs w1')
    (motive_3 := fun w' f vs v w1' _ => ReturnsApply I w' f vs v w1')
    ?_ ?_ ?_ ?_ ?_ ?_ ?_ ?_ ?_ ?_ ?_ ?_ ?_ ?_ ?_ ?_ ?_ h
  · intro env' w' c env w _ he hw
    exact ⟨1, _, _, same_datum _, hw, fun n hn => by obtain ⟨m, rfl⟩ : ∃ m, n = m + 1 := ⟨n - 1, by omega⟩; exact eval_lit_form ..⟩
  · intro env' w' d env w _ he hw
    exact ⟨1, _, _, same_datum _, hw, fun n hn => by
      obtain ⟨m, rfl⟩ : ∃ m, n = m + 1 := ⟨n - 1, by omega⟩
      simp [Core.form, Datum.list, eval]⟩
  · intro env' w' x v hf env w _ he hw
    have hx := he x (by simp [Core.fv])
    generalize hl : lookup x env = a at hx
    rw [hf] at hx
    cases hx with
    | @some u _ hs => exact ⟨1, u, w, hs, hw, fun n hn => by
        obtain ⟨m, rfl⟩ : ∃ m, n = m + 1 := ⟨n - 1, by omega⟩
        simp [Core.form, eval, hl]⟩
  · intro env' w' x v hf hg env w _ he hw
    have hx := he x (by simp [Core.fv])
    have hg' := hw.globals x
    generalize hl : lookup x env = a at hx
    generalize hl' : w.globals (lookupVar I.ex x "" I.imp) = b at hg'
    rw [hf] at hx
    rw [hg] at hg'
    cases hx
    cases hg' with
    | @some u _ hs => exact ⟨1, u, w, hs, hw, fun n hn => by
        obtain ⟨m, rfl⟩ : ∃ m, n = m + 1 := ⟨n - 1, by omega⟩
        simp [Core.form, eval, hl, hl']⟩
  · intro env' w' ps b env w hc he hw
    refine ⟨1, _, w, same_clo (env := env) hc ?_, hw, fun n hn => ?_⟩
    · intro x hx
      rw [find_capture, if_pos hx]
      exact he x hx
    · obtain ⟨m, rfl⟩ : ∃ m, n = m + 1 := ⟨n - 1, by omega⟩
      simp [Core.form, Datum.list, eval]
  · intro env' w' a b c v w1' w2' _ _ i1 i2 env w hc he hw
    obtain ⟨N1, u1, w1, s1, sw1, r1⟩ := i1 env w hc.1 (he.sub (by simp [Core.fv]; grind)) hw
    cases s1
    obtain ⟨N2, u2, w2, s2, sw2, r2⟩ := i2 env w1 hc.2.1 (he.sub (by simp [Core.fv]; grind)) sw1
    refine ⟨N1 + N2 + 1, u2, w2, s2, sw2, fun n hn => ?_⟩
    obtain ⟨m, rfl⟩ : ∃ m, n = m + 1 := ⟨n - 1, by omega⟩
    simp [Core.form, Datum.list, eval, r1 m (by omega), r2 m (by omega)]
  · intro env' w' a b c u' v w1' w2' _ hne _ i1 i2 env w hc he hw
    obtain ⟨N1, u1, w1, s1, sw1, r1⟩ := i1 env w hc.1 (he.sub (by simp [Core.fv]; grind)) hw
    obtain ⟨N2, u2, w2, s2, sw2, r2⟩ := i2 env w1 hc.2.2 (he.sub (by simp [Core.fv]; grind)) sw1
    refine ⟨N1 + N2 + 1, u2, w2, s2, sw2, fun n hn => ?_⟩
    obtain ⟨m, rfl⟩ : ∃ m, n = m + 1 := ⟨n - 1, by omega⟩
    simp only [Core.form, Datum.list, eval, r1 m (by omega), Option.bind_eq_bind, Option.bind_some]
    split
    · cases s1
      exact absurd rfl hne
    · exact r2 m (by omega)
  · intro env' w' a b u' v w1' w2' _ _ i1 i2 env w hc he hw
    obtain ⟨N1, u1, w1, s1, sw1, r1⟩ := i1 env w hc.1 (he.sub (by simp [Core.fv]; grind)) hw
    obtain ⟨N2, u2, w2, s2, sw2, r2⟩ := i2 env w1 hc.2 (he.sub (by simp [Core.fv]; grind)) sw1
    refine ⟨N1 + N2 + 1, u2, w2, s2, sw2, fun n hn => ?_⟩
    obtain ⟨m, rfl⟩ : ∃ m, n = m + 1 := ⟨n - 1, by omega⟩
    simp [Core.form, Datum.list, eval, r1 m (by omega), r2 m (by omega)]
  · intro env' w' x a b u' v w1' w2' _ _ i1 i2 env w hc he hw
    obtain ⟨N1, u1, w1, s1, sw1, r1⟩ := i1 env w hc.1 (he.sub (by simp [Core.fv]; grind)) hw
    obtain ⟨N2, u2, w2, s2, sw2, r2⟩ := i2 _ w1 hc.2 (he.cons s1 (by simp [Core.fv]; grind)) sw1
    refine ⟨N1 + N2 + 1, u2, w2, s2, sw2, fun n hn => ?_⟩
    obtain ⟨m, rfl⟩ : ∃ m, n = m + 1 := ⟨n - 1, by omega⟩
    simp [Core.form, Datum.list, eval, r1 m (by omega), r2 m (by omega)]
  · intro env' w' f args p vs v w1' w2' hp hg _ _ i1 i2 env w hc he hw
    have hf : f = .var (.named p) ∧ find (.named p) env' = none := by
      unfold Core.primOf at hp
      split at hp
      · split at hp
        · cases hp
          rename_i h
          exact ⟨rfl, h.1⟩
        · cases hp
      · cases hp
    obtain ⟨rfl, hf⟩ := hf
    have hx := he (.named p) (by simp [Core.fv])
    have hg' := hw.globals (.named p)
    generalize hl : lookup (.named p) env = a at hx
    generalize hl' : w.globals (lookupVar I.ex (.named p) "" I.imp) = b at hg'
    rw [hf] at hx
    rw [hg] at hg'
    cases hx
    cases hg' with
    | some hs =>
      cases hs
      obtain ⟨N1, us, w1, s1, sw1, r1⟩ := i1 env w hc.2.2 (he.sub (by simp [Core.fv]; grind)) hw
      obtain ⟨N2, u2, w2, s2, sw2, r2⟩ := i2 _ us w1 (.prim p) s1 sw1
      refine ⟨N1 + N2 + 2, u2, w2, s2, sw2, fun n hn => ?_⟩
      obtain ⟨m, rfl⟩ : ∃ m, n = m + 2 := ⟨n - 2, by omega⟩
      rw [eval_app_form I (m + 1) hc.1]
      simp [Core.form, eval, hl, hl', r1 (m + 1) (by omega), r2 (m + 1) (by omega)]
  · intro env' w' f args g vs v w1' w2' w3' hp _ _ _ i0 i1 i2 env w hc he hw
    obtain ⟨N0, g', w0, s0, sw0, r0⟩ := i0 env w hc.2.1 (he.sub (by simp [Core.fv]; grind)) hw
    obtain ⟨N1, us, w1, s1, sw1, r1⟩ := i1 env w0 hc.2.2 (he.sub (by simp [Core.fv]; grind)) sw0
    obtain ⟨N2, u2, w2, s2, sw2, r2⟩ := i2 _ us w1 s0 s1 sw1
    refine ⟨N0 + N1 + N2 + 1, u2, w2, s2, sw2, fun n hn => ?_⟩
    obtain ⟨m, rfl⟩ : ∃ m, n = m + 1 := ⟨n - 1, by omega⟩
    rw [eval_app_form I m hc.1]
    simp [r0 m (by omega), r1 m (by omega), r2 m (by omega)]
  · intro env' w' env w _ _ hw
    exact ⟨1, [], w, .nil, hw, fun n hn => by
      obtain ⟨m, rfl⟩ : ∃ m, n = m + 1 := ⟨n - 1, by omega⟩
      simp [Core.forms, Datum.list, evalArgs]⟩
  · intro env' w' e es v vs w1' w2' _ _ i1 i2 env w hc he hw
    obtain ⟨N1, u1, w1, s1, sw1, r1⟩ := i1 env w hc.1 (he.sub (by simp [Core.fvs]; grind)) hw
    obtain ⟨N2, us, w2, s2, sw2, r2⟩ := i2 env w1 hc.2 (he.sub (by simp [Core.fvs]; grind)) sw1
    refine ⟨N1 + N2 + 1, u1 :: us, w2, .cons s1 s2, sw2, fun n hn => ?_⟩
    obtain ⟨m, rfl⟩ : ∃ m, n = m + 1 := ⟨n - 1, by omega⟩
    simp [Core.forms, Datum.list, evalArgs, r1 m (by omega), r2 m (by omega)]
  · intro w' ps b env' args v w1' hl h3 _ i f us w hf hs hw
    cases hf with
    | @clo ps b env env' hb h1 h2 =>
      obtain ⟨N, u, w1, s, sw, r⟩ := i _ w hb (sameEnv_extend ps hs hl (same_clo_env h1 h2) (by simp [Core.fv]; grind)) hw
      refine ⟨N + 1, u, w1, s, sw, fun n hn => ?_⟩
      obtain ⟨m, rfl⟩ : ∃ m, n = m + 1 := ⟨n - 1, by omega⟩
      have := sames_length hs
      simp only [apply, elems_list, List.length_map]
      rw [if_pos (by omega)]
      exact r m (by omega)
  · intro w' p args v w1' hl hg hq f us w hf hs hw
    cases hf
    have := prim_same hA (p := p) hs hw hg
    generalize hr : prim I p us w = q at this
    rw [hq] at this
    cases this with
    | @some u _ w1 _ s sw =>
      refine ⟨1, u, w1, s, sw, fun n hn => ?_⟩
      obtain ⟨m, rfl⟩ : ∃ m, n = m + 1 := ⟨n - 1, by omega⟩
      simp only [apply, sames_length hs, hl, if_true]
      exact hr
  · intro w' id k args v w1' hl hq f us w hf hs hw
    cases hf
    have := hA.native id us args w w' hs hw
    generalize hr : I.native id us w = q at this
    rw [hq] at this
    cases this with
    | @some u _ w1 _ s sw =>
      refine ⟨1, u, w1, s, sw, fun n hn => ?_⟩
      obtain ⟨m, rfl⟩ : ∃ m, n = m + 1 := ⟨n - 1, by omega⟩
      simp only [apply, sames_length hs, hl, if_true]
      exact hr
  · intro w' f got args v w1' hne _ i f us w hf hs hw
    cases hf with
    | pap hf hl hg =>
      obtain ⟨N, u, w1, s, sw, r⟩ := i _ _ w hf (sames_append (sames_get hl hg) hs) hw
      refine ⟨N + 1, u, w1, s, sw, fun n hn => ?_⟩
      obtain ⟨m, rfl⟩ : ∃ m, n = m + 1 := ⟨n - 1, by omega⟩
      simp only [apply]
      rw [if_neg (fun h => hne ((sames_nil hs).1 h))]
      exact r m (by omega)

theorem plain_eval {E : Ext W} {fixed : Sym → Bool} {env w c v w1} (h : Plain.Eval E fixed env w c v w1) :
    Spec.Lang.Eval E env w c v w1 :=
  Plain.Eval.rec (motive_1 := fun env w c v w1 _ => Spec.Lang.Eval E env w c v w1)
    (motive_2 := fun env w cs vs w1 _ => Spec.Lang.EvalArgs E env w cs vs w1)
    (motive_3 := fun w f vs v w1 _ => Spec.Lang.Apply E w f vs v w1)
    .lit .quote .local .global .lam
    (fun _ _ _ _ _ _ _ _ _ _ i1 i2 => .then _ _ _ _ _ _ _ _ i1 i2)
    (fun _ _ _ _ _ _ _ _ _ _ hn _ i1 i2 => .else _ _ _ _ _ _ _ _ _ i1 hn i2)
    (fun _ _ _ _ _ _ _ _ _ _ i1 i2 => .seq _ _ _ _ _ _ _ _ i1 i2)
    (fun _ _ _ _ _ _ _ _ _ _ _ i1 i2 => .bind _ _ _ _ _ _ _ _ _ i1 i2)
    (fun _ _ _ _ _ _ _ _ _ hp _ _ _ i1 i2 => .prim _ _ _ _ _ _ _ _ _ hp i1 i2)
    (fun _ _ _ _ _ _ _ _ _ _ hp _ _ _ i1 i2 i3 => .app _ _ _ _ _ _ _ _ _ _ hp i1 i2 i3)
    .nil
    (fun _ _ _ _ _ _ _ _ _ _ i1 i2 => .cons _ _ _ _ _ _ _ _ i1 i2)
    (fun _ _ _ _ _ _ _ hl _ _ i => .clo _ _ _ _ _ _ _ hl i)
    (fun _ _ _ _ _ hl _ hq => .prim _ _ _ _ _ hl hq)
    (fun _ _ _ _ _ _ hl hq => .native _ _ _ _ _ _ hl hq)
    (fun _ _ _ _ _ _ hn _ i => .pap _ _ _ _ _ _ hn i) h

/-- the interpreter as it is: any variable can be set -/
def Setting.free (I : Setting W) : Setting W := { I with fixed := fun _ => false }

theorem prim_free {I : Setting W} {p us w r} (h : prim I p us w = some r) : prim I.free p us w = some r := by
  unfold prim at h ⊢
  split at h
  · split at h
    · cases h
    · simpa [Setting.free] using h
  all_goals first
    | exact h
    | (simp_all [outside, Setting.free])

theorem free {I : Setting W} : ∀ n,
    (∀ e env w r, eval I n e env w = some r → eval I.free n e env w = some r) ∧
    (∀ e env w r, evalArgs I n e env w = some r → evalArgs I.free n e env w = some r) ∧
    (∀ f us w r, apply I n f us w = some r → apply I.free n f us w = some r) := by
  intro n
  induction n with
  | zero => simp [eval, evalArgs, apply]
  | succ n ih =>
    obtain ⟨ih1, ih2, ih3⟩ := ih
    refine ⟨?_, ?_, ?_⟩
    · intro e env w r h
      unfold eval at h ⊢
      split at h
      · exact h
      · exact h
      · simp only [Option.bind_eq_bind, Option.bind_eq_some_iff] at h ⊢
        obtain ⟨x, h1, h2⟩ := h
        refine ⟨x, ih1 _ _ _ _ h1, ?_⟩
        split at h2 <;> exact ih1 _ _ _ _ h2
      · simp only [Option.bind_eq_bind, Option.bind_eq_some_iff] at h ⊢
        obtain ⟨x, h1, h2⟩ := h
        exact ⟨x, ih1 _ _ _ _ h1, ih1 _ _ _ _ h2⟩
      · simp only [Option.bind_eq_bind, Option.bind_eq_some_iff] at h ⊢
        obtain ⟨x, h1, h2⟩ := h
        exact ⟨x, ih1 _ _ _ _ h1, prim_free h2⟩
      · simp only [Option.bind_eq_bind, Option.bind_eq_some_iff] at h ⊢
        obtain ⟨x, h1, h2⟩ := h
        exact ⟨x, ih1 _ _ _ _ h1, ih1 _ _ _ _ h2⟩
      · exact h
      · simp only [Option.bind_eq_bind, Option.bind_eq_some_iff] at h ⊢
        obtain ⟨x, h1, y, h2, h3⟩ := h
        exact ⟨x, ih1 _ _ _ _ h1, y, ih2 _ _ _ _ h2, ih3 _ _ _ _ h3⟩
      · exact h
    · intro e env w r h
      unfold evalArgs at h ⊢
      split at h
      · simp only [Option.bind_eq_bind, Option.bind_eq_some_iff] at h ⊢
        obtain ⟨x, h1, y, h2, h3⟩ := h
        exact ⟨x, ih1 _ _ _ _ h1, y, ih2 _ _ _ _ h2, h3⟩
      · exact h
    · intro f us w r h
      unfold apply at h ⊢
      split at h
      · split at h
        · rename_i hl
          rw [if_pos hl]
          exact ih1 _ _ _ _ h
        · cases h
      · split at h
        · rename_i hl
          simp only [hl, if_true]
          exact prim_free h
        · cases h
      · split at h
        · rename_i hl
          simp only [hl, if_true]
          exact h
        · cases h
      · split at h
        · cases h
        · rename_i hl
          simp only [hl, if_false]
          exact ih3 _ _ _ _ h
      · cases h

/-- **C40**, soundness: whatever value and state the interpreter ends with, in a run that does not set the variables of
primitives or of imported names, is the value and state the language gives the program. -/
theorem C40_sound_partial {I : Setting W} {E : Ext W} (hA : Agree I E) {c : Core} (hc : c.noKeyword) {env env' w w' n u w1}
    (he : SameEnv c.fv env env') (hw : SameWorld I w w') (h : eval I n c.form env w = some (u, w1)) :
    eval I.free n c.form env w = some (u, w1) ∧
    ∃ v w1', Spec.Lang.Eval E env' w' c v w1' ∧ Same u v ∧ SameWorld I w1 w1' := by
  refine ⟨(free n).1 _ _ _ _ h, ?_⟩
  obtain ⟨v, w1', e, s, sw⟩ := (sound hA n).1 c env env' w w' u w1 hc he hw h
  exact ⟨v, w1', plain_eval e, s, sw⟩

/-- **C40**, completeness: if the program has a value, all calls have the right number of arguments, closures at most
three parameters and primitives are called through their variables, then the interpreter returns that value. -/
theorem C40_complete_partial {I : Setting W} {E : Ext W} (hA : Agree I E) {c : Core} (hc : c.noKeyword) {env env' w w' v w1'}
    (he : SameEnv c.fv env env') (hw : SameWorld I w w') (h : Plain.Eval E I.fixed env' w' c v w1') :
    ∃ N u w1, Same u v ∧ SameWorld I w1 w1' ∧ ∀ n ≥ N, eval I.free n c.form env w = some (u, w1) := by
  obtain ⟨N, u, w1, s, sw, r⟩ := complete hA h env w hc he hw
  exact ⟨N, u, w1, s, sw, fun n hn => (free n).1 _ _ _ _ (r n hn)⟩

/-! ### a setting -/

/-- nothing imported, no arithmetic -/
def bare : Setting Unit := ⟨fun _ => [], [], fun _ _ _ => none, fun _ _ _ => none, fun x => Cora.Macro.isBuiltin x⟩
def bareExt : Ext Unit := ⟨fun _ _ _ => none, fun _ _ _ => none⟩

/-- lib/eval.cora:5-20: the variables of all primitives but `integer?` are set -/
def bareWorld : World Unit :=
  ⟨fun x => match x with
    | .named p => if p ≠ "integer?" ∧ (primArity p).isSome then some (.prim p) else none
    | _ => none, ()⟩
def bareWorld' : Spec.Lang.World Unit :=
  ⟨fun x => match x with
    | .named p => if p ≠ "integer?" ∧ (primArity p).isSome then some (.prim p) else none
    | _ => none, ()⟩

theorem bare_lookup (x : Sym) : lookupVar (fun _ => []) x "" [] = x := by
  simp [lookupVar, Cora.Macro.varWithNs]

theorem bare_agree : Agree bare bareExt where
  prim p us vs w _ := .inr ⟨rfl, rfl⟩
  native id us vs w w' _ _ := .none
  primFixed p hp := by simpa [bare, Cora.Macro.isBuiltin] using hp
  nameFixed x _ y := by simp [bare, bare_lookup]

theorem bare_world : SameWorld bare bareWorld bareWorld' where
  rest := rfl
  globals x := by
    simp only [bare, bare_lookup, bareWorld, bareWorld']
    cases x with
    | gen n => exact .none
    | named p =>
      simp only
      split
      · exact .some (.prim p)
      · exact .none
  prims p hp v hv := by
    simp only [bareWorld'] at hv
    split at hv <;> cases hv
    rfl

/-- `(let f (lambda (x y) (cons y x)) (do (set 'g f) (g 1 'a)))` -/
def sample : Core :=
  .bind (.named "f") (.lam [.named "x", .named "y"] (.app (.var (.named "cons")) [.var (.named "y"), .var (.named "x")]))
    (.seq (.app (.var (.named "set")) [.quote (kw "g"), .var (.named "f")])
      (.app (.var (.named "g")) [.lit (.int 1), .quote (kw "a")]))

example : ∃ w1, eval bare 20 sample.form [] bareWorld = some (.cons (.sym (.named "a")) (.int 1), w1) ∧
    sample.noKeyword ∧ SameEnv sample.fv [] [] :=
  ⟨_, rfl, by simp [sample, Core.noKeyword, Core.noKeywords], fun _ _ => .none⟩

/-- the language gives that program the same value, by the theorem -/
example : ∃ w, Spec.Lang.Eval bareExt [] bareWorld' sample (.cons (.sym (.named "a")) (.int 1)) w := by
  have h : ∃ w1, eval bare 20 sample.form [] bareWorld = some (.cons (.sym (.named "a")) (.int 1), w1) := ⟨_, rfl⟩
  obtain ⟨w1, h⟩ := h
  obtain ⟨_, v, w, he, hs, _⟩ := C40_sound_partial bare_agree (by simp [sample, Core.noKeyword, Core.noKeywords])
    (env := []) (env' := []) (fun _ _ => .none) bare_world h
  rcases hs with _ | _ | _ | _ | _ | ⟨_ | _, _ | _⟩
  exact ⟨w, he⟩

/-! ### where they disagree -/

/-- no currying: `((lambda (x y) x) 1 …)` with an argument missing is a function, but the interpreter traps -/
theorem C40_no_currying :
    let c := Core.app (.lam [.named "x", .named "y"] (.var (.named "x"))) [.lit (.int 1)]
    (∃ v w, Spec.Lang.Eval bareExt [] bareWorld' c v w) ∧ ∀ n, eval bare.free n c.form [] bareWorld = none := by
  refine ⟨⟨_, _, .app _ _ _ _ _ _ _ _ _ _ rfl (.lam _ _ _ _) (.cons _ _ _ _ _ _ _ _ (.lit _ _ _) (.nil _ _))
    (.less _ _ 2 _ rfl (by simp) (by simp))⟩, fun n => ?_⟩
  rcases n with _ | _ | _ | _ | n <;> rfl

/-- a function of four parameters does not fit into the frame the interpreter reserves -/
theorem C40_four_parameters :
    let c := Core.app (.lam [.named "a", .named "b", .named "c", .named "d"] (.var (.named "d")))
      [.lit (.int 1), .lit (.int 2), .lit (.int 3), .lit (.int 4)]
    (∃ w, Spec.Lang.Eval bareExt [] bareWorld' c (.int 4) w) ∧ ∀ n, eval bare.free n c.form [] bareWorld = none := by
  refine ⟨⟨_, .app _ _ _ _ _ _ _ _ _ _ rfl (.lam _ _ _ _) (.cons _ _ _ _ _ _ _ _ (.lit _ _ _)
    (.cons _ _ _ _ _ _ _ _ (.lit _ _ _) (.cons _ _ _ _ _ _ _ _ (.lit _ _ _) (.cons _ _ _ _ _ _ _ _ (.lit _ _ _) (.nil _ _)))))
    (.clo _ _ _ _ _ _ _ rfl (.local _ _ _ _ rfl))⟩, fun n => ?_⟩
  rcases n with _ | _ | _ | _ | _ | _ | _ | n <;> rfl

/-- `integer?` is a primitive of compiled programs only -/
theorem C40_integer :
    let c := Core.app (.var (.named "integer?")) [.lit (.int 1)]
    (∃ w, Spec.Lang.Eval bareExt [] bareWorld' c (.bool true) w) ∧ ∀ n, eval bare.free n c.form [] bareWorld = none := by
  refine ⟨⟨_, .prim _ _ _ _ "integer?" _ _ _ _ rfl (.cons _ _ _ _ _ _ _ _ (.lit _ _ _) (.nil _ _))
    (.prim _ _ _ _ _ rfl rfl)⟩, fun n => ?_⟩
  rcases n with _ | _ | n <;> rfl

/-- after `(set 'car cdr)` a call of `car` in interpreted code is one of `cdr` -/
theorem C40_redefined_primitive :
    let c := Core.seq (.app (.var (.named "set")) [.quote (kw "car"), .var (.named "cdr")])
      (.app (.var (.named "car")) [.quote (.cons (.int 1) (.int 2))])
    (∃ w, Spec.Lang.Eval bareExt [] bareWorld' c (.int 1) w) ∧
    ∃ w, eval bare.free 10 c.form [] bareWorld = some (.int 2, w) := by
  refine ⟨⟨_, .seq _ _ _ _ _ _ _ _ (.prim _ _ _ _ "set" _ _ _ _ rfl (.cons _ _ _ _ _ _ _ _ (.quote _ _ _)
    (.cons _ _ _ _ _ _ _ _ (.global _ _ _ (.prim "cdr") rfl rfl) (.nil _ _))) (.prim _ _ _ _ _ rfl rfl))
    (.prim _ _ _ _ "car" _ _ _ _ rfl (.cons _ _ _ _ _ _ _ _ (.quote _ _ _) (.nil _ _)) (.prim _ _ _ _ _ rfl rfl))⟩,
    ⟨_, rfl⟩⟩

/-- a global variable with the name of an imported definition can be set but not seen: after `(import "p")`, where `p`
exports `f`, `(do (set 'f 1) f)` is not 1 -/
theorem C40_import_hides :
    let I : Setting Unit := { bare.free with imp := ["p"], ex := fun q => if q = "p" then [.named "f"] else [] }
    let w := setGlobal bareWorld (.named "p#f") (.int 0)
    let c := Core.seq (.app (.var (.named "set")) [.quote (kw "f"), .lit (.int 1)]) (.var (.named "f"))
    ∃ w1, eval I 10 c.form [] w = some (.int 0, w1) := ⟨_, rfl⟩

end Cora.Interp
