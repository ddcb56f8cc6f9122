import Verif.Lemmas.CompileWhole
import Verif.Lemmas.Lang
/-
C35: the compiled program does what the program means. The meaning of programs is in Spec/Lang.lean, `Spec.Compiled`
says what is observed of compiled programs.
-/
open Spec.Lang Spec.Compiled
namespace Cora.Compile
variable {W : Type}

/-! ### the language in which global variables do not change at the wrong time -/

/-- `SEval` is a part of `Eval`. -/
theorem seval_eval {E : Ext W} {env w e v o w1} (h : SEval E env w e v o w1) : Eval E env w e v w1 := by
  refine XEval.rec (motive_1 := fun env w e v _ w1 _ => Eval E env w e v w1)
    (motive_2 := fun env w es vs _ w1 _ => EvalArgs E env w es vs w1)
    (motive_3 := fun w f args v w1 _ => Apply E w f args v w1)
    ?_ ?_ ?_ ?_ ?_ ?_ ?_ ?_ ?_ ?_ ?_ ?_ ?_ ?_ ?_ ?_ ?_ ?_ ?_ ?_ ?_ h
  · intros; exact .lit ..
  · intros; exact .quote ..
  · intro _ _ _ _ h; exact .local _ _ _ _ h
  · intro _ _ _ _ h h'; exact .global _ _ _ _ h h'
  · intros; exact .lam ..
  · intro _ _ _ _ _ _ _ _ _ _ _ _ h h'; exact .then _ _ _ _ _ _ _ _ h h'
  · intro _ _ _ _ _ _ _ _ _ _ _ _ hu _ h h'; exact .else _ _ _ _ _ _ _ _ _ h hu h'
  · intro _ _ _ _ _ _ _ _ _ _ _ _ h h'; exact .seq _ _ _ _ _ _ _ _ h h'
  · intro _ _ _ _ _ _ _ _ _ _ _ _ _ h h'; exact .bind _ _ _ _ _ _ _ _ _ h h'
  · intro _ _ _ _ _ _ _ _ _ _ hp _ _ _ h h'; exact .prim _ _ _ _ _ _ _ _ _ hp h h'
  · intro _ _ _ _ _ _ _ _ _ _ _ _ hp _ _ _ _ h h' h''; exact .app _ _ _ _ _ _ _ _ _ _ hp h h' h''
  · intros; exact .nil ..
  · intro _ _ _ _ _ _ _ _ _ _ _ _ h h'; exact .cons _ _ _ _ _ _ _ _ h h'
  · intro _ _ _ _ _ _ _ _ hl _ h; exact .clo _ _ _ _ _ _ _ hl h
  · intro _ _ _ _ _ h h'; exact .prim _ _ _ _ _ h h'
  · intro _ _ _ _ _ _ h h'; exact .native _ _ _ _ _ _ h h'
  · intro _ _ _ h h'; exact .none _ _ _ h h'
  · intro _ _ _ _ h h' h''; exact .less _ _ _ _ h h' h''
  · intro _ _ _ _ _ _ _ _ _ h h' _ _ h2 h3; exact .more _ _ _ _ _ _ _ _ h h' h2 h3
  · intro _ _ _ _ _ _ h _ h'; exact .pap _ _ _ _ _ _ h h'
  · intros; exact .papNone ..

/-! ### every program in which primitives get all their operands is compiled -/

mutual
theorem parse_some : ∀ (e : Core) (env : List Sym) (k : Nat), e.full → ∃ r, parse env e k = some r
  | .lit _, _, _, _ => ⟨_, rfl⟩
  | .quote _, _, _, _ => ⟨_, rfl⟩
  | .var _, _, _, _ => ⟨_, rfl⟩
  | .lam ps b, env, k, h => by
    obtain ⟨⟨b', k1⟩, h1⟩ := parse_some b (ps ++ env) k (by simpa only [Core.full] using h)
    exact ⟨_, by rw [parse, h1]; rfl⟩
  | .ite a b c, env, k, h => by
    simp only [Core.full] at h
    rw [parse]
    by_cases hi : isIf a
    · rw [if_pos hi]
      obtain ⟨⟨b', k1⟩, h1⟩ := parse_some b (Sym.gen (k + 1) :: env) (k + 2) h.2.1
      obtain ⟨⟨c', k2⟩, h2⟩ := parse_some c (Sym.gen (k + 1) :: env) k1 h.2.2
      obtain ⟨⟨a', k3⟩, h3⟩ := parse_some a (Sym.gen k :: env) k2 h.1
      simp only [h1, h2, h3, Option.bind_eq_bind, Option.bind_some]
      exact ⟨_, rfl⟩
    · rw [if_neg hi]
      obtain ⟨⟨a', k1⟩, h1⟩ := parse_some a env k h.1
      obtain ⟨⟨b', k2⟩, h2⟩ := parse_some b env k1 h.2.1
      obtain ⟨⟨c', k3⟩, h3⟩ := parse_some c env k2 h.2.2
      simp only [h1, h2, h3, Option.bind_eq_bind, Option.bind_some]
      exact ⟨_, rfl⟩
  | .seq a b, env, k, h => by
    simp only [Core.full] at h
    obtain ⟨⟨a', k1⟩, h1⟩ := parse_some a env k h.1
    obtain ⟨⟨b', k2⟩, h2⟩ := parse_some b env k1 h.2
    exact ⟨_, by simp only [parse, h1, h2, Option.bind_eq_bind, Option.bind_some]; rfl⟩
  | .bind x a b, env, k, h => by
    simp only [Core.full] at h
    obtain ⟨⟨a', k1⟩, h1⟩ := parse_some a env k h.1
    obtain ⟨⟨b', k2⟩, h2⟩ := parse_some b (x :: env) k1 h.2
    exact ⟨_, by simp only [parse, h1, h2, Option.bind_eq_bind, Option.bind_some]; rfl⟩
  | .app f args, env, k, h => by
    simp only [Core.full] at h
    rw [parse]
    by_cases hl : lamIf f args
    · rw [if_pos hl]
      obtain ⟨⟨f', k1⟩, h1⟩ := parse_some f env (k + 1) h.1
      obtain ⟨⟨as', k2⟩, h2⟩ := parseList_some args (Sym.gen k :: env) k1 h.2.1
      simp only [h1, h2, Option.bind_eq_bind, Option.bind_some]
      exact ⟨_, rfl⟩
    · rw [if_neg hl]
      cases hb : builtin f with
      | some pn =>
        obtain ⟨p, n⟩ := pn
        obtain ⟨rfl, hn⟩ := builtin_eq hb
        have := h.2.2 n hn
        obtain ⟨⟨as', k2⟩, h2⟩ := parseList_some args env k h.2.1
        simp only [this.symm, if_true, h2, Option.bind_eq_bind, Option.bind_some]
        exact ⟨_, rfl⟩
      | none =>
        obtain ⟨⟨f', k1⟩, h1⟩ := parse_some f env k h.1
        obtain ⟨⟨as', k2⟩, h2⟩ := parseList_some args env k1 h.2.1
        simp only [h1, h2, Option.bind_eq_bind, Option.bind_some]
        exact ⟨_, rfl⟩
theorem parseList_some : ∀ (es : List Core) (env : List Sym) (k : Nat), Core.fulls es → ∃ r, parseList env es k = some r
  | [], _, _, _ => ⟨_, rfl⟩
  | e :: es, env, k, h => by
    simp only [Core.fulls] at h
    obtain ⟨⟨a', k1⟩, h1⟩ := parse_some e env k h.1
    obtain ⟨⟨b', k2⟩, h2⟩ := parseList_some es env k1 h.2
    exact ⟨_, by simp only [parseList, h1, h2, Option.bind_eq_bind, Option.bind_some]; rfl⟩
end

/-- A program in which primitives are called with all their operands is compiled without error. -/
theorem C35_compiles (e : Core) (k : Nat) (h : e.full) : ∃ file k', compile e k = some (file, k') := by
  obtain ⟨⟨e1, k1⟩, h1⟩ := parse_some e [] k h
  exact ⟨_, _, by simp only [compile, h1, Option.bind_eq_bind, Option.bind_some]; rfl⟩

/-! ### compiled programs -/

/-- what is asked of a form and of the counter of `gensym` when it is compiled, and of its compiled file -/
structure Suited (n k : Nat) (e : Core) (file : List Lam) : Prop where
  /-- the symbols that `gensym` makes are new -/
  fresh : Below k e.syms
  /-- no variable is named like a primitive -/
  names : NoPrims e.binders
  /-- primitives are called with all their operands -/
  full : e.full
  /-- `let` does not shadow a variable that is in use -/
  tidy : e.tidy []
  /-- the file is the result of compiling the form -/
  compiled : ∃ k', compile e k = some (file, k')
  /-- toplevel code saves less variables than there is room in the frame it runs in -/
  room : FitsFrame n file

/-- the values and worlds of a session, with the compiled files in place of the forms -/
def observations (items : List (Core × List Lam × Val × World W)) : List (List Lam × Val × World W) := items.map (·.2)

/-- **C35**, for forms as described by `Suited`. The forms of a session are compiled, and the compiled files are loaded one
after the other. Then loading each file ends, with a result and with global variables that look like those that the
language defines (functions only look like functions, but calling them in later forms is part of this statement).
Assumed: no global variable changes its value between being evaluated as an operand and the call it is an operand of
(`Session` by `SEval`); builtin functions behave alike in both settings (`Agree`) and do not look into functions
(`Parametric`); at the beginning global variables hold data and builtin functions. -/
theorem C35_compiled_session_partial {E : Ext W} {O : Outside W} (hA : Agree E O) (hO : Parametric O) {n : Nat}
    {w : World W} {w' : CWorld MCode W} (hw : Worlds Plain w w') (items : List (Core × List Lam × Val × World W))
    (hs : Session E w (items.map fun i => (i.1, i.2.2.1, i.2.2.2))) (hi : ∀ i ∈ items, ∃ k, Suited n k i.1 i.2.1) :
    Loads O n [] w' (observations items) := by
  suffices h : ∀ (items : List (Core × List Lam × Val × World W)) (units : List (List Lam)) (w : World W)
      (w' : CWorld MCode W), MWorld units w w' → Session E w (items.map fun i => (i.1, i.2.2.1, i.2.2.2)) →
      (∀ i ∈ items, ∃ k, Suited n k i.1 i.2.1) → Loads O n units w' (observations items) from
    h items [] w w' (plain_start [] hw) hs hi
  intro items
  induction items with
  | nil => intros; trivial
  | cons i items ih =>
    intro units w w' hw hs hi
    obtain ⟨e, file, v, w1⟩ := i
    cases hs with
    | cons h1 h2 =>
      obtain ⟨k, hk⟩ := hi (e, file, v, w1) (by simp)
      obtain ⟨k', hc⟩ := hk.compiled
      intro s hsw hin
      subst hsw
      obtain ⟨s', hrun, hv, hw1, hctx, hfr, hst⟩ := load_sim hA hO h1 hk.fresh hk.names hk.full hk.tidy hc s hw hin hk.room
      simp only [goX_true] at hrun
      exact ⟨s', hrun, looks_mrel hv, looks_world hw1, hctx, hfr, hst,
        ih _ _ _ hw1 h2 fun i hi' => hi i (by simp [hi'])⟩

/-! ### a session -/

def valInt : Val → Option Int
  | .int n => some n
  | _ => none

def cvalInt {A : Type} : CVal A → Option Int
  | .int n => some n
  | _ => none

def arith : String → Int → Int → Option Int
  | "+", a, b => some (a + b)
  | "-", a, b => some (a - b)
  | "*", a, b => some (a * b)
  | _, _, _ => none

/-- arithmetic on two numbers -/
def arith2 {α : Type} (num : α → Option Int) (p : String) : List α → Option Int
  | [a, b] => (num a).bind fun x => (num b).bind fun y => arith p x y
  | _ => none

/-- one number -/
def one {α : Type} (num : α → Option Int) : List α → Option Int
  | [a] => num a
  | _ => none

/-- arithmetic, and one builtin function which writes its argument to the log -/
def someExt : Ext (List Int) where
  prim p args r := (arith2 valInt p args).map fun n => (.int n, r)
  native _ args w := (one valInt args).map fun n => (.int n, { w with rest := n :: w.rest })

/-- the same for the machine -/
def someOutside : Outside (List Int) where
  prim p args r := (arith2 cvalInt p args).map fun n => (.int n, r)
  native _ args w := (one cvalInt args).map fun n => (.int n, { w with rest := n :: w.rest })

theorem vrel_int {A B : Type} {R : CodeRel A B} {u v} (h : VRel R u v) : cvalInt u = cvalInt v := by
  cases h <;> rfl

theorem like_int {A : Type} {V : Val → CVal A → Prop} (hV : Likeness V) {v u} (h : V v u) : valInt v = cvalInt u := by
  cases v with
  | int n => rw [(hV.int _ _).mp h]; rfl
  | bool n => rw [(hV.bool _ _).mp h]; rfl
  | nil => rw [(hV.nil _).mp h]; rfl
  | str n => rw [(hV.str _ _).mp h]; rfl
  | sym n => rw [(hV.sym _ _).mp h]; rfl
  | cons a d => obtain ⟨_, _, rfl, _⟩ := (hV.cons _ _ _).mp h; rfl
  | _ =>
    have := hV.fn _ _ h rfl
    cases u <;> first | rfl | simp [CVal.isFn] at this

theorem vrels_arith {A B : Type} {R : CodeRel A B} {us vs} (p : String) (h : VRels R us vs) :
    arith2 cvalInt p us = arith2 cvalInt p vs ∧ one cvalInt us = one cvalInt vs := by
  cases h with
  | nil => exact ⟨rfl, rfl⟩
  | cons h1 h2 =>
    cases h2 with
    | nil => exact ⟨rfl, vrel_int h1⟩
    | cons h3 h4 =>
      cases h4 with
      | nil => exact ⟨by simp only [arith2, vrel_int h1, vrel_int h3], rfl⟩
      | cons => exact ⟨rfl, rfl⟩

theorem allRel_arith {A : Type} {V : Val → CVal A → Prop} (hV : Likeness V) {us vs} (p : String) (h : AllRel V us vs) :
    arith2 valInt p us = arith2 cvalInt p vs ∧ one valInt us = one cvalInt vs := by
  cases h with
  | nil => exact ⟨rfl, rfl⟩
  | cons h1 h2 =>
    cases h2 with
    | nil => exact ⟨rfl, like_int hV h1⟩
    | cons h3 h4 =>
      cases h4 with
      | nil => exact ⟨by simp only [arith2, like_int hV h1, like_int hV h3], rfl⟩
      | cons => exact ⟨rfl, rfl⟩

theorem some_parametric : Parametric someOutside where
  prim R p us vs r h := by
    simp only [someOutside, (vrels_arith p h).1]
    cases arith2 cvalInt p vs with
    | none => exact .inr ⟨rfl, rfl⟩
    | some n => exact .inl ⟨_, _, _, rfl, rfl, .int _⟩
  native R id us vs w w' h hw := by
    simp only [someOutside, (vrels_arith "" h).2]
    cases one cvalInt vs with
    | none => exact .none
    | some n => exact .some (.int _) ⟨by simp [hw.rest], hw.globals⟩

theorem some_agree : Agree someExt someOutside where
  prim V hV p vs us r h := by
    simp only [someExt, someOutside, (allRel_arith hV p h).1]
    cases arith2 cvalInt p us with
    | none => exact .inr ⟨rfl, rfl⟩
    | some n => exact .inl ⟨_, _, _, rfl, rfl, (hV.int _ _).mpr rfl⟩
  native V hV id vs us w w' h hw := by
    simp only [someExt, someOutside, (allRel_arith hV "" h).2]
    cases one cvalInt us with
    | none => exact .none
    | some n => exact .some ((hV.int _ _).mpr rfl) ⟨by simp [hw.rest], hw.globals⟩

/-- a variable -/
abbrev v! (s : String) : Core := .var (.named s)
/-- a number -/
abbrev n! (n : Int) : Core := .lit (.int n)
/-- a global variable is set -/
abbrev set! (s : String) (e : Core) : Core := .app (v! "set") [.quote (.sym (.named s)), e]

/-- at the beginning there is one builtin function, `log`, and the number `x` -/
def someWorld : World (List Int) :=
  { globals := fun x => if x = .named "log" then some (.native 0 1) else if x = .named "x" then some (.int 1) else none, rest := [] }

/-- the same for the machine -/
def someCWorld : CWorld MCode (List Int) :=
  { globals := fun x => if x = .named "log" then some (.native 0 1) else if x = .named "x" then some (.int 1) else none, rest := [] }

theorem someWorld_plain : Worlds Plain someWorld someCWorld := by
  refine ⟨rfl, fun x => ?_⟩
  simp only [someWorld, someCWorld, Both]
  split
  · exact .inr ⟨_, _, rfl, rfl, .native 0 1⟩
  split
  · exact .inr ⟨_, _, rfl, rfl, .int 1⟩
  · exact .inl ⟨rfl, rfl⟩

/-- `(set 'twice (lambda (f) (lambda (a) (f (f a)))))` -/
def form1 : Core := set! "twice" (.lam [.named "f"] (.lam [.named "a"] (.app (v! "f") [.app (v! "f") [v! "a"]])))
/-- `(let b (twice log 5) (if (= b 5) (+ b (twice (+ 1) ...` shortened -/
def form2 : Core := .bind (.named "b") (.app (v! "twice") [v! "log", n! 5])
  (.ite (.app (v! "=") [v! "b", n! 5]) (.app (v! "+") [v! "b", .app (v! "log") [v! "x"]]) (n! 0))

/-- find a derivation of `SEval` -/
syntax "sev" : tactic
syntax "sargs" : tactic
syntax "sapp" : tactic
macro_rules
  | `(tactic| sev) => `(tactic| first
    | exact XEval.lit ..
    | exact XEval.quote ..
    | exact XEval.local _ _ _ _ rfl
    | exact XEval.global _ _ _ _ rfl rfl
    | exact XEval.lam ..
    | (apply XEval.bind
       · sev
       · sev)
    | (apply XEval.seq
       · sev
       · sev)
    | (apply XEval.then
       · sev
       · sev)
    | (apply XEval.else
       · sev
       · simp
       · sev)
    | (apply XEval.prim
       · rfl
       · sargs
       · rfl
       · sapp)
    | (apply XEval.app
       · rfl
       · sev
       · sargs
       · rfl
       · sapp))
macro_rules
  | `(tactic| sargs) => `(tactic| first
    | exact XArgs.nil ..
    | (apply XArgs.cons
       · sev
       · sargs))
macro_rules
  | `(tactic| sapp) => `(tactic| first
    | exact XApply.prim _ _ _ _ _ rfl rfl
    | exact XApply.native _ _ _ _ _ _ rfl rfl
    | (apply XApply.clo
       · rfl
       · sev)
    | (apply XApply.less
       · rfl
       · decide
       · decide)
    | (apply XApply.more
       · rfl
       · rfl
       · decide
       · sapp
       · sapp)
    | (apply XApply.pap
       · simp
       · sapp))

/-- the value of the first form -/
def twiceFn : Val := .clo [.named "f"] (.lam [.named "a"] (.app (v! "f") [.app (v! "f") [v! "a"]])) []

/-- `(twice log 5)` writes twice to the log; then `x` is logged -/
theorem some_session : Session someExt someWorld [(form1, twiceFn, someWorld.set (.named "twice") twiceFn),
    (form2, .int 6, { someWorld.set (.named "twice") twiceFn with rest := [1, 5, 5] })] := by
  apply XSession.cons (o := .now twiceFn)
  · sev
  apply XSession.cons (o := .now (.int 6))
  · sev
  exact .nil _

/-- the compiled files of the two forms -/
def file1 : List Lam := ((compile form1 0).map (·.1)).getD []
def file2 : List Lam := ((compile form2 5).map (·.1)).getD []

theorem fitsFrame_of {n : Nat} {file : List Lam}
    (h : (file.getLast?.map fun t => t.conts.all fun c => decide (c.live.length < n)) = some true) : FitsFrame n file := by
  intro top ht c hc
  rw [ht] at h
  simp only [Option.map_some, Option.some.injEq, List.all_eq_true, decide_eq_true_eq] at h
  exact h c hc

theorem suited1 : Suited 3 0 form1 file1 where
  fresh := by intro n hn; simp [form1, Core.syms, Core.symss] at hn
  names := by simp [form1, NoPrims, Core.binders, Core.binderss, Sym.isPrim, primArity]
  full := by simp [form1, Core.full, Core.fulls, fullCall, primArity]
  tidy := by simp [form1, Core.tidy, Core.tidys, Core.lets, Core.letss]
  compiled := ⟨_, rfl⟩
  room := fitsFrame_of rfl

theorem suited2 : Suited 3 5 form2 file2 where
  fresh := by intro n hn; simp [form2, Core.syms, Core.symss] at hn
  names := by simp [form2, NoPrims, Core.binders, Core.binderss, Sym.isPrim, primArity]
  full := by simp [form2, Core.full, Core.fulls, fullCall, primArity]
  tidy := by simp [form2, Core.tidy, Core.tidys, Core.lets, Core.letss]
  compiled := ⟨_, rfl⟩
  room := fitsFrame_of rfl

/-- the hypotheses of `C35_compiled_session_partial` hold of a session with a curried call, a function that calls
its argument, and calls with a continuation that needs a local variable -/
example : Loads someOutside 3 [] someCWorld
    [(file1, twiceFn, someWorld.set (.named "twice") twiceFn),
     (file2, .int 6, { someWorld.set (.named "twice") twiceFn with rest := [1, 5, 5] })] :=
  C35_compiled_session_partial some_agree some_parametric someWorld_plain
    [(form1, file1, twiceFn, someWorld.set (.named "twice") twiceFn),
     (form2, file2, .int 6, { someWorld.set (.named "twice") twiceFn with rest := [1, 5, 5] })]
    some_session (by
      intro i hi
      simp only [List.mem_cons, List.not_mem_nil, or_false] at hi
      rcases hi with rfl | rfl
      · exact ⟨0, suited1⟩
      · exact ⟨5, suited2⟩)

/-! ### where compiled programs do something else

Each of these forms has a value in the language, and the compiled file gives another one, when it is loaded first. -/

/-- a machine that is about to run `load-so` -/
def someMach : Mach (List Int) :=
  { ctx := { fn := .native 1 2, label := 0, bp := 0, sp := 3 }, frames := [{ fn := .exit, label := 0, bp := 0, sp := 0 }],
    stack := fun p => if p = 0 then .native 1 2 else .nil, res := .nil, world := someCWorld }

/-- the result of compiling a form and loading the file -/
def loaded (e : Core) : Option MVal := do
  let (file, _) ← compile e 0
  (go someOutside [file] 60 (someMach.loadSo 0 (file.length - 1)) none).map (·.res)

/-- the value of the form in the language, and that of the compiled one -/
def Differs (e : Core) (v : Val) (u : MVal) : Prop := (∃ w1, Eval someExt [] someWorld e v w1) ∧ loaded e = some u

/-- Global variables that are operands are read when the call is made, not in the order of evaluation:
`(+ x (set 'x 5))`, where `x` is 1. -/
theorem C35_global_operand_late : Differs (.app (v! "+") [v! "x", set! "x" (n! 5)]) (.int 6) (.int 10) :=
  ⟨⟨_, evalF_sound 20 rfl⟩, rfl⟩

/-- also a global variable that is called: `(f (set 'f (lambda (a) 2)))` after `(set 'f (lambda (a) 1))` -/
theorem C35_global_function_late :
    Differs (.seq (set! "f" (.lam [.named "a"] (n! 1))) (.app (v! "f") [set! "f" (.lam [.named "a"] (n! 2))]))
      (.int 1) (.int 2) :=
  ⟨⟨_, evalF_sound 20 rfl⟩, rfl⟩

/-- A `let` variable with the name of a captured variable: its uses are taken for the captured one.
`((lambda (a) ((lambda () (do a (let a 2 a))))) 1)` -/
theorem C35_let_shadows_captured :
    Differs (.app (.lam [.named "a"] (.app (.lam [] (.seq (v! "a") (.bind (.named "a") (n! 2) (v! "a")))) [])) [n! 1]) (.int 2) (.int 1) :=
  ⟨⟨_, evalF_sound 20 rfl⟩, rfl⟩

/-- The scope of a `let` that is an operand goes on after it: `((lambda (a) (+ (let a (log 7) a) a)) 1)` -/
theorem C35_let_scope_leaks :
    Differs (.app (.lam [.named "a"] (.app (v! "+") [.bind (.named "a") (.app (v! "log") [n! 7]) (v! "a"), v! "a"])) [n! 1])
      (.int 8) (.int 14) :=
  ⟨⟨_, evalF_sound 20 rfl⟩, rfl⟩

/-- A call of a variable with the name of a primitive calls the primitive: `((lambda (+) (+ 1 2)) (lambda (a b) 10))` -/
theorem C35_primitive_shadowed :
    Differs (.app (.lam [.named "+"] (.app (v! "+") [n! 1, n! 2])) [.lam [.named "a", .named "b"] (n! 10)]) (.int 10) (.int 3) :=
  ⟨⟨_, evalF_sound 20 rfl⟩, rfl⟩

/-- The operands of a primitive that gets too few of them are evaluated later, or not at all: `(do (+ (set 'x 5)) x)` -/
theorem C35_partial_primitive : Differs (.seq (.app (v! "+") [set! "x" (n! 5)]) (v! "x")) (.int 5) (.int 1) :=
  ⟨⟨_, evalF_sound 20 rfl⟩, rfl⟩

/-- Toplevel code runs in the frame of `load-so`, which has room for two saved variables. A third one is overwritten by
the next call: `(let a 1 b 2 c 3 (do (log 9) (if (= a b) 0 c)))` gives the function `log`. -/
theorem C35_toplevel_frame :
    Differs (.bind (.named "a") (n! 1) (.bind (.named "b") (n! 2) (.bind (.named "c") (n! 3)
      (.seq (.app (v! "log") [n! 9]) (.ite (.app (v! "=") [v! "a", v! "b"]) (n! 0) (v! "c"))))))
      (.int 3) (.native 0 1) :=
  ⟨⟨_, evalF_sound 20 rfl⟩, rfl⟩

/-- The same in a function is right: the frame of a function has room for all that is saved. -/
example : loaded (.app (.lam [] (.bind (.named "a") (n! 1) (.bind (.named "b") (n! 2) (.bind (.named "c") (n! 3)
      (.seq (.app (v! "log") [n! 9]) (.ite (.app (v! "=") [v! "a", v! "b"]) (n! 0) (v! "c"))))))) []) = some (.int 3) := rfl

end Cora.Compile
