import Verif.Props.Names
import Verif.Model.Record
import Verif.Spec.Record
/-
What `define-record` expands to.
-/
open Spec.Lang
namespace Cora.Record
open Cora.Macro hiding car cdr
variable {mt : Macros}

/-! ### forms that become core forms -/

/-- the expander and the namespace pass turn `e` into `c` -/
structure Becomes (mt : Macros) (e : Datum) (k : Nat) (c : Core) : Prop where
  run : ∃ d, Runs mt e k d k ∧ (∀ p, d ≠ .list [kw "import", .str p]) ∧ nsParse mt.ex [] "" [] d = some c.form

theorem becomes_turns {e : Datum} {k : Nat} {c : Core} (t : Turns mt e k c k) (hi : noImport c)
    (hn : ∀ p, c ≠ .app (.var (.named "import")) [.lit (.str p)]) : Becomes mt e k c :=
  ⟨c.form, t.run, fun p h => hn p (form_import h), nsParse_id c [] t.ok hi⟩

/-- `(set 'x e)` -/
def defC (x : Sym) (e : Core) : Core := .app (.var (.named "set")) [.quote (.sym x), e]

theorem becomes_def (hs : Std mt) {x : Sym} {ps : List Sym} {b : Datum} {k : Nat} {c : Core} (t : Turns mt b k c k)
    (hi : noImport c) : Becomes mt (.list [kw "defun", .sym x, .list (ps.map .sym), b]) k (defC x (.lam ps c)) := by
  have t1 := turns_define hs (x := x) (turns_lam hs (ps := ps) t)
  refine ⟨_, runs_macro (hs.plain (by decide) (by decide)) (hs.std "defun" _ rfl)
    ⟨0, fun n _ => ?_⟩ ?_ t1.run, ?_, ?_⟩
  · rfl
  · simp [Datum.list, kw]
  · intro p h; simp [Top.form, Datum.list, kw] at h
  · have hid := nsParse_id (mt := mt) (ex := mt.ex) (.lam ps c) [] t1.ok hi
    simp only [Top.form, Datum.list]
    rw [nsParse, hid]
    simp [defC, Core.form, Core.forms, Datum.list, varWithNs]

/-- forms one after the other -/
def seqC : Core → List Core → Core
  | c, [] => c
  | c, c' :: r => .seq c (seqC c' r)

inductive BecomesList (mt : Macros) (k : Nat) : List Datum → List Core → Prop where
  | nil : BecomesList mt k [] []
  | cons {e c es cs} : Becomes mt e k c → BecomesList mt k es cs → BecomesList mt k (e :: es) (c :: cs)

theorem becomes_do (hs : Std mt) {k : Nat} : ∀ (es : List Datum) (cs : List Core) (e : Datum) (c : Core),
    Becomes mt e k c → BecomesList mt k es cs →
    Becomes mt (doForm e es) k (seqC c cs)
  | [], _, e, c, h, .nil => h
  | e' :: es, _, e, c, h, .cons (c := c') (cs := cs) h1 h2 => by
    have ih := becomes_do hs es cs e' c' h1 h2
    obtain ⟨d1, r1, i1, n1⟩ := h
    obtain ⟨d2, r2, i2, n2⟩ := ih
    refine ⟨.list [kw "do", d1, d2], ?_, ?_, ?_⟩
    · exact runs_list (hs.plain (by decide) (by decide)) (by intro y hy; cases hy; exact hs.core _ (by simp))
        (.cons runs_sym (.cons r1 (.cons r2 .nil)))
    · intro p h; simp [Datum.list, kw] at h
    · simp only [Datum.list]
      rw [nsParse_do]
      · simp [nsParses, n1, n2, seqC, Core.form, Datum.list]
      · intro p y he
        injection he with he _
        exact i1 p he

theorem becomes_begin (hs : Std mt) {k : Nat} {es : List Datum} {cs : List Core} {e : Datum} {c : Core}
    (h : Becomes mt e k c) (h2 : BecomesList mt k es cs) :
    Becomes mt (.cons (kw "begin") (.list (e :: es))) k (seqC c cs) := by
  obtain ⟨d, r, i, n⟩ := becomes_do hs es cs e c h h2
  refine ⟨d, runs_macro (hs.plain (by decide) (by decide)) (hs.std "begin" _ rfl) ⟨0, fun n _ => ?_⟩ ?_ r, i, n⟩
  · have := rewriteBegin_list e es
    simp [Cora.Macro.cdr, this, liftM, monadLift, MonadLift.monadLift, StateT.lift]
  · cases es with
    | nil =>
      simp only [doForm, Datum.list]
      intro h
      have := congrArg sizeOf h
      simp at this
      omega
    | cons => simp [doForm, Datum.list]

theorem turns_do (hs : Std mt) {k : Nat} : ∀ (cs : List Core) (c : Core), okCore (special mt) c → okCores (special mt) cs →
    Turns mt (doForm c.form (Core.forms cs)) k (seqC c cs) k
  | [], c, h, _ => turns_self hs c k h
  | c' :: cs, c, h, h2 => turns_seq hs (turns_self hs c k h) (turns_do hs cs c' h2.1 h2.2)

theorem turns_begin (hs : Std mt) {k : Nat} {cs : List Core} {c : Core} (h : okCore (special mt) c)
    (h2 : okCores (special mt) cs) :
    Turns mt (.cons (kw "begin") (.list (c.form :: Core.forms cs))) k (seqC c cs) k := by
  refine turns_std hs (by decide) (by decide) rfl (g := fun e => (Cora.Macro.cdr e).bind rewriteBegin) ?_ ?_
    (turns_do hs cs c h h2)
  · simpa [Cora.Macro.cdr] using rewriteBegin_list c.form (Core.forms cs)
  · cases cs with
    | nil =>
      simp only [doForm, Datum.list, Core.forms]
      intro h
      have := congrArg sizeOf h
      simp at this
      omega
    | cons => simp [doForm, Datum.list, Core.forms]

/-! ### the functions of a record type -/

abbrev gv (s : String) : Core := .var (.named s)

/-- `(vector-set! ret i e)` -/
def setCall (ret : Sym) (i : Nat) (e : Core) : Core := .app (gv "vector-set!") [.var ret, .lit (.int i), e]

/-- where a field is -/
def index (d : Decl) (x : Sym) : Nat := (d.fields.map Field.name).idxOf x

/-- the assignments of the constructor and its result -/
def makeSets (d : Decl) (ret : Sym) : List Core :=
  (d.inits.map fun x => setCall ret (1 + index d x) (.var x)) ++ [.var ret]

def makeBody (d : Decl) (k : Nat) : Core :=
  .bind (.gen k) (.app (gv "vector") [.lit (.int (1 + d.fields.length : Nat))])
    (seqC (setCall (.gen k) 0 (.quote (.sym d.type))) (makeSets d (.gen k)))

def predBody (d : Decl) (k : Nat) : Core :=
  .ite (.app (gv "vector?") [.var (.gen (k + 1))])
    (.ite (.app (gv "=") [.app (gv "vector-length") [.var (.gen (k + 1))], .lit (.int (1 + d.fields.length : Nat))])
      (.ite (.app (gv "=") [.app (gv "vector-ref") [.var (.gen (k + 1)), .lit (.int 0)], .quote (.sym d.type)])
        (.lit (.bool true)) (.lit (.bool false)))
      (.lit (.bool false)))
    (.lit (.bool false))

def getBody (j k : Nat) : Core := .app (gv "vector-ref") [.var (.gen k), .lit (.int (j + 1 : Nat))]
def setBody (j k : Nat) : Core := .app (gv "vector-set!") [.var (.gen k), .lit (.int (j + 1 : Nat)), .var (.gen (k + 1))]

/-- the symbols generated for the fields -/
def fieldsEnd : List Field → Nat → Nat
  | [], k => k
  | .plain _ :: r, k => fieldsEnd r k
  | .readable _ _ :: r, k => fieldsEnd r (k + 1)
  | .settable _ _ _ :: r, k => fieldsEnd r (k + 2)

def fieldForms : List Field → Nat → Nat → List Datum
  | [], _, _ => []
  | .plain _ :: r, j, k => .nil :: fieldForms r (j + 1) k
  | .readable _ g :: r, j, k =>
    .list [kw "defun", .sym g, .list [.sym (.gen k)], (getBody j k).form] :: fieldForms r (j + 1) (k + 1)
  | .settable _ g s :: r, j, k =>
    .list [kw "begin", .list [kw "defun", .sym g, .list [.sym (.gen k)], (getBody j k).form],
      .list [kw "defun", .sym s, .list [.sym (.gen k), .sym (.gen (k + 1))], (setBody j k).form]] :: fieldForms r (j + 1) (k + 2)

def fieldCores : List Field → Nat → Nat → List Core
  | [], _, _ => []
  | .plain _ :: r, j, k => .lit .nil :: fieldCores r (j + 1) k
  | .readable _ g :: r, j, k => defC g (.lam [.gen k] (getBody j k)) :: fieldCores r (j + 1) (k + 1)
  | .settable _ g s :: r, j, k =>
    .seq (defC g (.lam [.gen k] (getBody j k))) (defC s (.lam [.gen k, .gen (k + 1)] (setBody j k))) ::
      fieldCores r (j + 1) (k + 2)

def fieldDefs : List Field → Nat → Nat → List (Sym × Val)
  | [], _, _ => []
  | .plain _ :: r, j, k => fieldDefs r (j + 1) k
  | .readable _ g :: r, j, k => (g, .clo [.gen k] (getBody j k) []) :: fieldDefs r (j + 1) (k + 1)
  | .settable _ g s :: r, j, k => (g, .clo [.gen k] (getBody j k) []) ::
      (s, .clo [.gen k, .gen (k + 1)] (setBody j k) []) :: fieldDefs r (j + 1) (k + 2)

def makeForm (d : Decl) (k : Nat) : Datum :=
  .list [kw "defun", .sym d.constructor, .list (d.inits.map .sym),
    .list [kw "let", .sym (.gen k), .list [kw "vector", .int (1 + d.fields.length : Nat)],
      .cons (kw "begin") (.list ((setCall (.gen k) 0 (.quote (.sym d.type))).form :: Core.forms (makeSets d (.gen k))))]]

def predForm (d : Decl) (k : Nat) : Datum :=
  match d.predicate with
  | none => .nil
  | some p => .list [kw "defun", .sym p, .list [.sym (.gen (k + 1))],
      .list [kw "and", .list [kw "vector?", .sym (.gen (k + 1))],
        .list [kw "=", .list [kw "vector-length", .sym (.gen (k + 1))], .int (1 + d.fields.length : Nat)],
        .list [kw "=", .list [kw "vector-ref", .sym (.gen (k + 1)), .int 0], .list [kw "quote", .sym d.type]]]]

def predCore (d : Decl) (k : Nat) : Core :=
  match d.predicate with
  | none => .lit .nil
  | some p => defC p (.lam [.gen (k + 1)] (predBody d k))

def predDefs (d : Decl) (k : Nat) : List (Sym × Val) :=
  match d.predicate with
  | none => []
  | some p => [(p, .clo [.gen (k + 1)] (predBody d k) [])]

/-- all functions of the type -/
def defs (d : Decl) (k : Nat) : List (Sym × Val) :=
  (d.constructor, .clo d.inits (makeBody d k) []) :: (predDefs d k ++ fieldDefs d.fields 0 (k + 2))

def declCore (d : Decl) (k : Nat) : Core :=
  .seq (defC d.constructor (.lam d.inits (makeBody d k))) (seqC (predCore d k) (fieldCores d.fields 0 (k + 2)))

/-! ### the macro -/

theorem fieldIndexH_eq (x : Sym) : ∀ (fs : List Field) (i : Nat), x ∈ fs.map Field.name →
    fieldIndexH i (.sym x) (.list (fs.map Field.form)) = some (i + (fs.map Field.name).idxOf x)
  | [], i, h => by simp at h
  | f :: r, i, h => by
    have hf : ∃ t, f.form = .cons (.sym f.name) t := by cases f <;> exact ⟨_, rfl⟩
    obtain ⟨t, ht⟩ := hf
    simp only [List.map_cons, Datum.list, ht, fieldIndexH, List.idxOf_cons]
    by_cases e : f.name = x
    · simp [e]
    · simp only [List.map_cons, List.mem_cons] at h
      rcases h with h | h
      · exact absurd h.symm e
      · have hb : (f.name == x) = false := by simpa using e
        simp [e, hb, fieldIndexH_eq x r (i + 1) h]; omega

theorem initRecord_eq (d : Decl) (ret : Sym) : ∀ xs : List Sym, (∀ x ∈ xs, x ∈ d.fields.map Field.name) →
    initRecord (.sym ret) (.list (d.fields.map Field.form)) (.list (xs.map .sym)) =
      some (.list (Core.forms (xs.map fun x => setCall ret (1 + index d x) (.var x))))
  | [], _ => rfl
  | x :: r, h => by
    have h1 := fieldIndexH_eq x d.fields 0 (h x (by simp))
    have ih := initRecord_eq d ret r fun y hy => h y (by simp [hy])
    simp only [List.map_cons, Datum.list, initRecord, fieldIndex, h1, ih, Core.forms]
    simp [setCall, Core.form, Core.forms, Datum.list, Const.datum, index]

theorem length_list : ∀ l : List Datum, Cora.Macro.length (.list l) = some l.length
  | [] => rfl
  | a :: r => by simp [Datum.list, Cora.Macro.length, length_list r]

theorem mapM_fields (all : List Field) (hnd : (all.map Field.name).Nodup) : ∀ (fs pre : List Field), all = pre ++ fs →
    ∀ k, mapM (rewriteFieldH (.list (all.map Field.form))) (.list (fs.map Field.form)) k =
      some (.list (fieldForms fs pre.length k), fieldsEnd fs k)
  | [], pre, _, k => rfl
  | f :: r, pre, he, k => by
    have hidx : fieldIndex (.sym f.name) (.list (all.map Field.form)) = some pre.length := by
      rw [fieldIndex, fieldIndexH_eq _ _ _ (by simp [he])]
      have : f.name ∉ pre.map Field.name := by
        rw [he] at hnd
        simp only [List.map_append, List.map_cons] at hnd
        intro hm
        exact (List.nodup_append.1 hnd).2.2 _ hm _ (by simp) rfl
      simp [he, List.idxOf_append, this]
    have ih := fun k => mapM_fields all hnd r (pre ++ [f]) (by simp [he]) k
    simp only [List.length_append, List.length_cons, List.length_nil, Nat.zero_add] at ih
    cases f with
    | plain x =>
      simp only [List.map_cons, Datum.list, Field.form, mapM, rewriteFieldH, bind, StateT.bind, pure, StateT.pure,
        Option.bind_some, ih, fieldForms, fieldsEnd]
    | readable x g =>
      simp only [Field.name] at hidx
      simp only [List.map_cons, Datum.list, Field.form, mapM, rewriteFieldH, bind, StateT.bind, pure, StateT.pure,
        Option.bind_some, ih, fieldForms, fieldsEnd, gensym, hidx, liftM, monadLift, MonadLift.monadLift, StateT.lift]
      simp [getBody, Core.form, Core.forms, Datum.list, Const.datum]
    | settable x g s =>
      simp only [Field.name] at hidx
      simp only [List.map_cons, Datum.list, Field.form, mapM, rewriteFieldH, bind, StateT.bind, pure, StateT.pure,
        Option.bind_some, ih, fieldForms, fieldsEnd, gensym, hidx, liftM, monadLift, MonadLift.monadLift, StateT.lift]
      simp [getBody, setBody, Core.form, Core.forms, Datum.list, Const.datum]

theorem forms_append : ∀ a b : List Core, Core.forms (a ++ b) = Core.forms a ++ Core.forms b
  | [], b => rfl
  | x :: a, b => by simp [Core.forms, forms_append a b]

theorem defineRecord_eq {d : Decl} {k : Nat} (hnd : (d.fields.map Field.name).Nodup)
    (hex : ∀ x ∈ d.inits, x ∈ d.fields.map Field.name) (mx : Datum → M Datum) :
    defineRecord mx d.form k = some (.cons (kw "begin") (.list (makeForm d k :: predForm d k ::
      fieldForms d.fields 0 (k + 2))), fieldsEnd d.fields (k + 2)) := by
  have h1 := initRecord_eq d (.gen k) d.inits hex
  have h2 := mapM_fields d.fields hnd d.fields [] rfl (k + 2)
  rw [List.length_nil] at h2
  have h3 : Cora.Macro.length (.list (d.fields.map Field.form)) = some d.fields.length := by simp [length_list]
  have happ : append (.list (Core.forms (d.inits.map fun x => setCall (.gen k) (1 + index d x) (.var x)))) (.list [.sym (.gen k)]) =
      some (.list (Core.forms (makeSets d (.gen k)))) := by
    rw [append_list]
    simp [makeSets, forms_append, Core.forms, Core.form]
  have hnil : (if Datum.list (Core.forms (d.inits.map fun x => setCall (.gen k) (1 + index d x) (.var x))) = .nil
      then some (Datum.list [.sym (.gen k)])
      else append (.list (Core.forms (d.inits.map fun x => setCall (.gen k) (1 + index d x) (.var x)))) (.list [.sym (.gen k)])) =
      some (.list (Core.forms (makeSets d (.gen k)))) := by
    split
    · rename_i h
      rw [h] at happ
      simpa [append] using happ
    · exact happ
  have hf : d.form = .cons (kw "define-record") (.cons (.sym d.type) (.cons (.cons (.sym d.constructor) (.list (d.inits.map .sym)))
      (.cons d.predicateForm (.list (d.fields.map Field.form))))) := rfl
  rw [hf]
  simp only [defineRecord, Cora.Macro.cdr, bind, StateT.bind, liftM, monadLift, MonadLift.monadLift, StateT.lift,
    Option.bind_some, rewriteDefineRecord, gensym, h1, h3, pure, StateT.pure]
  have hp : (if Datum.bool false = d.predicateForm then Datum.nil else
      .list [kw "defun", d.predicateForm, .list [.sym (.gen (k + 1))],
        .list [kw "and", .list [kw "vector?", .sym (.gen (k + 1))],
          .list [kw "=", .list [kw "vector-length", .sym (.gen (k + 1))], .int (1 + d.fields.length : Nat)],
          .list [kw "=", .list [kw "vector-ref", .sym (.gen (k + 1)), .int 0], .list [kw "quote", .sym d.type]]]]) = predForm d k := by
    unfold predForm Decl.predicateForm
    cases d.predicate <;> simp
  rw [hp]
  by_cases h : Datum.list (Core.forms (d.inits.map fun x => setCall (.gen k) (1 + index d x) (.var x))) = .nil
  · rw [if_pos h] at hnil ⊢
    simp only [StateT.bind, StateT.pure, pure, bind, Option.bind_some, h2]
    injection hnil with hnil
    simp [makeForm, ← hnil, Datum.list, setCall, Core.form, Core.forms, Const.datum]
  · rw [if_neg h] at hnil ⊢
    simp only [happ, StateT.bind, StateT.pure, StateT.lift, pure, bind, Option.bind_some, h2]
    simp [makeForm, Datum.list, setCall, Core.form, Core.forms, Const.datum]

end Cora.Record
