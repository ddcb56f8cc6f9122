import Verif.Spec.Twice
import Verif.Props.Repl
import Verif.Props.Optimised
/-
C94: the same text, interpreted and compiled.
-/
open Spec Spec.Lang Spec.Compiled
namespace Cora.Twice
open Script Compile Toc Repl
variable {W : Type}

/-! ### both show what the language says -/

theorem shows_fn {a : Interp.Val} {v : Val} (h : Shows a v) (hf : isFunction v = true) : isFunctionValue a = true := by
  cases h <;> first | rfl | cases hf

theorem alike_of {A : Type} {v : Val} {m : CVal A} (hm : Spec.Compiled.Looks v m) : ∀ {a : Interp.Val}, Shows a v → Alike a m := by
  induction hm with
  | int n => intro a h; cases h; exact .int _
  | bool n => intro a h; cases h; exact .bool _
  | nil => intro a h; cases h; exact .nil
  | str n => intro a h; cases h; exact .str _
  | sym n => intro a h; cases h; exact .sym _
  | cons _ _ ih1 ih2 => intro a h; cases h with | cons h1 h2 => exact .cons (ih1 h1) (ih2 h2)
  | fn h1 h2 => intro a h; exact .fn (shows_fn h h1) h2

theorem means_bare {w : World W} (h : Bare w) (x : Lang.Sym) : w.means x = x :=
  resolve_none fun p hp => by rw [h p hp]; simp

theorem opened_bare {w : World W} (h : Bare w) : w.opened = w := by
  simp only [World.opened, means_bare h]

theorem alikeWorlds_of {A : Type} {u : Interp.World W} {w : World W} {c : CWorld A W} (h : ShowsWorld u w) (hb : Bare w)
    (hc : Worlds Spec.Compiled.Looks w c) : AlikeWorlds u c where
  rest := h.rest.trans hc.1
  globals x := by
    have h1 := h.unset x
    have h2 := h.globals x
    rw [opened_bare hb, means_bare hb] at h1 h2
    rcases hc.2 x with ⟨e1, e2⟩ | ⟨v, m, e1, e2, e3⟩
    · exact .inl ⟨h1 e1, e2⟩
    · obtain ⟨a, e4, e5⟩ := h2 v e1
      exact .inr ⟨a, m, e4, e2, alike_of e3 e5⟩

/-- forms one after the other are one program -/
theorem says_eval {E : Ext W} : ∀ (ls : List (Line W)) (l : Line W) {w : World W}, (∀ w1 ∈ w :: (l :: ls).map (·.world), Bare w1) →
    Says E w ((l :: ls).map fun l => (l.prog, l.val, l.world)) →
    ∃ last, (l :: ls).getLast? = some last ∧ Eval E [] w (inOrder l.prog (ls.map (·.prog))) last.val last.world
  | [], l, w, hb, h => by
    refine ⟨l, rfl, ?_⟩
    cases h with
    | cons h _ =>
      rw [opened_bare (hb w (by simp))] at h
      exact h
  | l' :: ls, l, w, hb, h => by
    cases h with
    | cons h1 h2 =>
      rw [opened_bare (hb w (by simp))] at h1
      obtain ⟨last, e1, e2⟩ := says_eval ls l' (w := l.world) (fun w1 hw1 => hb w1 (List.mem_cons_of_mem _ hw1)) h2
      exact ⟨last, by rw [List.getLast?_cons_cons]; exact e1, .seq _ _ _ _ _ _ _ _ h1 e2⟩

theorem showsAll_last : ∀ {us : List Interp.Val} {vs : List Val} {v : Val}, ShowsAll us vs → vs.getLast? = some v →
    ∃ u, us.getLast? = some u ∧ Shows u v
  | [], _, _, h, e => by cases h; cases e
  | [u], _, v, h, e => by
    cases h with
    | cons h1 h2 => cases h2; cases e; exact ⟨u, rfl, h1⟩
  | u :: u' :: us, _, v, h, e => by
    cases h with
    | cons h1 h2 =>
      cases h2 with
      | cons h2 h3 =>
        rw [List.getLast?_cons_cons] at e ⊢
        exact showsAll_last (.cons h2 h3) e

/-- **C94**. A text has forms, in any layout and with any comments, and the language defines a value for each, in the world that the forms
before have left. It is typed to the interpreter on the one side, and compiled, with partial evaluation, and loaded on the other; both start
with the same global variables. Then both come to an end. The last answer of the interpreter looks like the result of loading, the outside
is in the same state, the same global variables are set, and their values look the same. Missing: what C83 and C86 leave out, names that
come from imported packages, and expansions that depend on how many symbols were generated before (`hc` says that the compiler
has the programs that the interpreter has; see `C94_program_partial` for when this is so). -/
theorem C94_same_partial {B : Base W} {fixed mac} {E : Ext W} {O : Outside W} {T : Toc.Setting} (hF : Fit B fixed mac E) (hA : Agree E O)
    (hO : Parametric O) (hB : E.BlackBox) (hP : E.Adds) {r k : Nat} {u : Interp.World W} {w : World W} {w' : CWorld MCode W}
    (hu : Start u w) (hw : Worlds Spec.Compiled.Plain w w') {l : Line W} {ls : List (Line W)}
    (h : Script mac fixed E r k w (l :: ls)) (hbare : ∀ w1 ∈ w :: (l :: ls).map (·.world), Bare w1)
    {text : Bytes} (ht : IsText text ((l :: ls).map (·.src)))
    {n q : Nat} {opt : Core} {c : Bytes} (v : Val) (hc : Boot.OptFile T n q ⟨text, inOrder l.prog (ls.map (·.prog)), opt, c, v, w⟩)
    (ho : ∃ v1 w1, Session E w [(opt, v1, w1)]) :
    ∃ N t a, (∀ n m f, N ≤ n → N ≤ m → N ≤ f → repl (step B r f) n m text ⟨u, k, []⟩ = .done t) ∧ t.results.getLast? = some a ∧
      ∀ s : Mach W, s.world = w' → InFrame q s →
        ∃ file s', readFile c = some file ∧ (∃ fuel, goText O [c] fuel (s.loadSo 0 file.start) none = some s') ∧
          Alike a s'.res ∧ AlikeWorlds t.world s'.world := by
  obtain ⟨N, t, h1, h2, h3⟩ := C86_repl_partial hF hB hP hu h ht
  obtain ⟨last, e1, e2⟩ := says_eval ls l hbare h.says
  obtain ⟨a, e3, e4⟩ := showsAll_last h2 (v := last.val) (by rw [List.getLast?_map, e1]; rfl)
  have hend : endOf w (l :: ls) = last.world := by simp only [endOf, e1, Option.map_some, Option.getD_some]
  have hblast : Bare last.world := hbare _ (List.mem_cons_of_mem _ (List.mem_map_of_mem (List.mem_of_getLast? e1)))
  obtain ⟨v1, w1, ho⟩ := ho
  have := Boot.C83_session_partial (T := T) (n := n) (r := q) hA hO hB hP hw
    [⟨text, inOrder l.prog (ls.map (·.prog)), opt, c, last.val, last.world⟩] (.cons e2 (.nil _)) ⟨_, rfl, ho⟩ (by
      intro i hi
      rw [List.mem_singleton] at hi
      subst hi
      obtain ⟨k, k2, k3, lams, o, ht⟩ := hc
      exact ⟨k, k2, k3, lams, ⟨o.program, o.optimised, o.safe, o.compiled, o.forC, o.room⟩, ht⟩)
  refine ⟨N, t, a, h1, e3, fun s hs hq => ?_⟩
  obtain ⟨file, s', f1, f2, f3, f4, _⟩ := this s hs hq
  rw [hend] at h3
  exact ⟨file, s', f1, f2, alike_of f3 e4, alikeWorlds_of h3 hblast f4⟩

/-! ### the program of a text -/

/-- the form expands to the same, however many symbols were generated before -/
def Settles (mt : Macro.Macros) (K : Nat) (d : Datum) (t : Top) : Prop := ∀ k, K ≤ k → ∃ k', Macro.TopTurns mt d k t k'

theorem resolve_inOrder {ex : String → List Lang.Sym} : ∀ (ts : List Top) (t : Top), (∀ x ∈ t :: ts, x.imports = []) →
    resolveTops ex "" [] t ts = inOrder (t.resolve ex "" []) (ts.map fun t => t.resolve ex "" [])
  | [], _, _ => rfl
  | t' :: ts, t, h => by
    rw [resolveTops, h t (by simp), List.nil_append, resolve_inOrder ts t' (fun x hx => h x (List.mem_cons_of_mem _ hx))]
    rfl

/-- a form expands to one thing only -/
theorem turns_form {mt : Macro.Macros} {d : Datum} {k k' k'' : Nat} {t t' : Top} (h : Macro.TopTurns mt d k t k')
    (h' : Macro.TopTurns mt d k t' k'') : t.form = t'.form := by
  obtain ⟨N, hN⟩ := h.run
  obtain ⟨M, hM⟩ := h'.run
  have := (hN (max N M) (by omega)).symm.trans (hM (max N M) (by omega))
  simp only [Option.some.injEq, Prod.mk.injEq] at this
  exact this.1

theorem expansions_forms {mt : Macro.Macros} {K : Nat} {ds : List Datum} {ts : List Top} (h : Macro.TopExpansions mt K ds ts) :
    ∀ {g : Datum → Top}, (∀ d ∈ ds, Settles mt K d (g d)) → ts.map Top.form = (ds.map g).map Top.form := by
  induction h with
  | nil => intro g _; rfl
  | cons h1 _ ih =>
    intro g hg
    obtain ⟨k, k', hk, h1⟩ := h1
    obtain ⟨k'', h2⟩ := hg _ List.mem_cons_self k hk
    rw [List.map_cons, List.map_cons, List.map_cons, ih (g := g) fun d hd => hg d (List.mem_cons_of_mem _ hd), turns_form h1 h2]

theorem doTops_forms : ∀ {ts ts' : List Top} {t t' : Top}, t.form = t'.form → ts.map Top.form = ts'.map Top.form →
    Macro.doTops t ts = Macro.doTops t' ts'
  | [], [], _, _, h, _ => by simpa only [Macro.doTops] using h
  | [], _ :: _, _, _, _, h => by simp at h
  | _ :: _, [], _, _, _, h => by simp at h
  | a :: ts, a' :: ts', t, t', h, hs => by
    simp only [List.map_cons, List.cons.injEq] at hs
    simp only [Macro.doTops, h, doTops_forms hs.1 hs.2]

/-- names are resolved in the form alone -/
theorem resolve_forms {mt : Macro.Macros} {t t' : Top} {ts ts' : List Top} (hok : ∀ x ∈ t :: ts, Macro.Top.ok mt x)
    (hok' : ∀ x ∈ t' :: ts', Macro.Top.ok mt x) (h : Macro.doTops t ts = Macro.doTops t' ts') :
    resolveTops mt.ex "" [] t ts = resolveTops mt.ex "" [] t' ts' := by
  have a1 := hok t (by simp)
  have a2 : ∀ x ∈ ts, Macro.Top.ok mt x := fun x hx => hok x (List.mem_cons_of_mem _ hx)
  have b1 := hok' t' (by simp)
  have b2 : ∀ x ∈ ts', Macro.Top.ok mt x := fun x hx => hok' x (List.mem_cons_of_mem _ hx)
  have e1 := Macro.nsParse_tops (mt := mt) (ex := mt.ex) ts t [] (ns := "") a1 a2
  have e2 := Macro.nsParse_tops (mt := mt) (ex := mt.ex) ts' t' [] (ns := "") b1 b2
  rw [h, e2] at e1
  have f1 := Toc.formOf_form _ (Toc.ok_resolveTops mt.ex "" ts t [] a1 a2)
  have f2 := Toc.formOf_form _ (Toc.ok_resolveTops mt.ex "" ts' t' [] b1 b2)
  rw [← Option.some.inj e1, f2] at f1
  exact (Option.some.inj f1).symm

/-- **C94**, the programs: if a text has at least two forms, no notes and no imports, and every form expands to the same whatever was
generated before, then the program of the file is that of the forms, as the interpreter expands them, one after the other. -/
theorem C94_program_partial {T : Toc.Setting} {mt : Macro.Macros} {k k1 K : Nat} (hr : Ready T [] k mt k1) (hk : K ≤ k1) {text : Bytes}
    {d d' : Datum} {ds : List Datum} (ht : IsText text (d :: d' :: ds)) (hplain : PlainStart (d :: d' :: ds))
    (hnotes : withoutNotes (d :: d' :: ds) = d :: d' :: ds) {g : Datum → Top}
    (hexp : ∀ x ∈ d :: d' :: ds, Settles mt K x (g x) ∧ (g x).imports = []) :
    ∃ (p : Datum → Core) (k2 N : Nat), (∀ x ∈ d :: d' :: ds, ∀ j, K ≤ j → ∃ j' M, ∀ m, M ≤ m → Repl.program mt m x j = some (p x, j')) ∧
      ∀ n, N ≤ n → Toc.program T n text k = some (inOrder (p d) ((d' :: ds).map p), k2) := by
  have htop : ∀ x ∈ d :: d' :: ds, Macro.TopExpandable mt K x := fun x hx j hj => ⟨_, (hexp x hx).1 j hj⟩
  have hok : ∀ x ∈ (d :: d' :: ds).map g, Macro.Top.ok mt x := by
    intro x hx
    obtain ⟨y, hy, rfl⟩ := List.mem_map.mp hx
    obtain ⟨_, h⟩ := (hexp y hy).1 K (Nat.le_refl _)
    exact h.ok
  obtain ⟨t, ts, k2, h1, N, h2⟩ := C78_forms_partial hr hk (imps := []) (noted := d :: d' :: ds) (by simpa using ht) (by simp)
    hplain (by rw [hnotes]; simp) (by rw [hnotes]; exact htop)
  rw [hnotes] at h1
  have h3 := expansions_forms h1 (g := g) (by simpa using fun x hx => (hexp x hx).1)
  have h4 := topExpansions_ok h1
  simp only [List.map_nil, List.nil_append, List.map_cons, List.cons.injEq] at h3
  refine ⟨fun x => (g x).resolve mt.ex "" [], k2, N, fun x hx j hj => ?_, fun n hn => ?_⟩
  · obtain ⟨t, j', e1, M, e2⟩ := C86_program_partial (htop x hx) hj
    cases e1 with
    | cons e1 _ =>
      obtain ⟨a, b, ha, e1⟩ := e1
      obtain ⟨b', e3⟩ := (hexp x hx).1 a ha
      have := resolve_forms (ts := []) (ts' := []) (by simpa using e1.ok) (by simpa using e3.ok)
        (by simpa only [Macro.doTops] using turns_form e1 e3)
      simp only [resolveTops] at this
      rw [this] at e2
      exact ⟨j', M, e2⟩
  · rw [h2 n hn, resolve_forms h4 hok (doTops_forms h3.1 (by simpa using h3.2)), resolve_inOrder _ _ (by
      intro x hx
      obtain ⟨y, hy, rfl⟩ := List.mem_map.mp (show x ∈ (d :: d' :: ds).map g from hx)
      exact (hexp y hy).2)]
    simp only [List.map_cons, List.map_map, Function.comp_def]

/-! ### a case -/

/-- arithmetic and the log, for the interpreter -/
def someBase : Base (List Int) where
  macros _ := Macro.initMacros
  prim p args r :=
    match args with
    | [.int x, .int y] => (arith p x y).map fun n => (.int n, r)
    | _ => none
  native _ args w :=
    match args with
    | [.int n] => some (.int n, { w with rest := n :: w.rest })
    | _ => none

def someFixed (x : Lang.Sym) : Bool := x.primitive

/-- at the beginning there are the primitives, one builtin function, `log`, and the number `x` -/
def world0 : World (List Int) where
  globals x := match x with
    | .named "log" => some (.native 0 1)
    | .named "x" => some (.int 1)
    | .named p => if p ≠ "integer?" ∧ (primArity p).isSome then some (.prim p) else none
    | .gen _ => none
  rest := []

/-- the same for the interpreter -/
def iWorld0 : Interp.World (List Int) where
  globals x := match x with
    | .named "log" => some (.native 0 1)
    | .named "x" => some (.int 1)
    | .named p => if p ≠ "integer?" ∧ (primArity p).isSome then some (.prim p) else none
    | .gen _ => none
  rest := []

/-- the same for the machine -/
def cWorld0 : CWorld MCode (List Int) where
  globals x := match x with
    | .named "log" => some (.native 0 1)
    | .named "x" => some (.int 1)
    | .named p => if p ≠ "integer?" ∧ (primArity p).isSome then some (.prim p) else none
    | .gen _ => none
  rest := []

theorem world0_start : Start iWorld0 world0 where
  rest := rfl
  globals x := by
    simp only [iWorld0, world0]
    split
    · exact .some (.native _ _)
    · exact .some (.int _)
    · split
      · exact .some (.prim _)
      · exact .none
    · exact .none
  prims p hp v hv := by
    simp only [world0] at hv
    split at hv
    · rename_i h; cases h; cases hp
    · rename_i h; cases h; cases hp
    · rename_i h
      cases h
      split at hv <;> cases hv
      rfl
    · cases hv

theorem world0_plain : Worlds Spec.Compiled.Plain world0 cWorld0 := by
  refine ⟨rfl, fun x => ?_⟩
  simp only [world0, cWorld0, Both]
  split
  · exact .inr ⟨_, _, rfl, rfl, .native 0 1⟩
  · exact .inr ⟨_, _, rfl, rfl, .int 1⟩
  · split
    · exact .inr ⟨_, _, rfl, rfl, .prim _⟩
    · exact .inl ⟨rfl, rfl⟩
  · exact .inl ⟨rfl, rfl⟩

theorem some_fit : Fit someBase someFixed (fun _ => Macro.initMacros) someExt where
  prim p us vs w h := by
    simp only [someBase, someExt]
    cases h with
    | nil => exact .inr ⟨rfl, rfl⟩
    | cons h1 h =>
      cases h with
      | nil => cases h1 <;> exact .inr ⟨rfl, rfl⟩
      | cons h2 h =>
        cases h with
        | cons => cases h1 <;> cases h2 <;> exact .inr ⟨rfl, rfl⟩
        | nil =>
          cases h1 <;> cases h2 <;> try exact .inr ⟨rfl, rfl⟩
          rename_i x y
          have e : arith2 valInt p [.int x, .int y] = arith p x y := by simp [arith2, valInt]
          simp only [e]
          cases arith p x y with
          | none => exact .inr ⟨rfl, rfl⟩
          | some n => exact .inl ⟨_, _, _, rfl, rfl, .int _⟩
  native ex imp ht id us vs w w' h hw := by
    simp only [someBase, someExt]
    cases h with
    | nil => exact .none
    | cons h1 h =>
      cases h with
      | cons => cases h1 <;> exact .none
      | nil =>
        cases h1 <;> try exact .none
        exact .some (.int _) ⟨by simp [hw.rest], hw.globals, hw.prims⟩
  primFixed p hp := by simp [someFixed, Lang.Sym.primitive, hp]
  macros _ _ _ := rfl

/-- `(defun both (f a) (f (f a)))` -/
def both1 : Core := set! "both" (.lam [.named "f", .named "a"] (.app (v! "f") [.app (v! "f") [v! "a"]]))
/-- `(let g (lambda (y) (+ y 2)) (+ (both log (g 3)) x))` -/
def both2 : Core := .bind (.named "g") (.lam [.named "y"] (.app (v! "+") [v! "y", n! 2]))
  (.app (v! "+") [.app (v! "both") [v! "log", .app (v! "g") [n! 3]], v! "x"])
/-- optimised -/
def both2' : Core := .app (v! "+") [.app (v! "both") [v! "log", n! 5], v! "x"]

def bothFn : Val := .clo [.named "f", .named "a"] (.app (v! "f") [.app (v! "f") [v! "a"]]) []
def bothWorld1 : World (List Int) := world0.set (.named "both") bothFn
def bothWorld2 : World (List Int) := { bothWorld1 with rest := [5, 5] }

def bothLine1 : Line (List Int) := ⟨.list [kw "defun", kw "both", .list [kw "f", kw "a"], .list [kw "f", .list [kw "f", kw "a"]]],
  both1, both1, bothFn, bothWorld1⟩
def bothLine2 : Line (List Int) := ⟨.list [kw "let", kw "g", .list [kw "lambda", .list [kw "y"], .list [kw "+", kw "y", .int 2]],
  .list [kw "+", .list [kw "both", kw "log", .list [kw "g", .int 3]], kw "x"]], both2, both2', .int 6, bothWorld2⟩

theorem both_bare : ∀ w1 ∈ world0 :: [bothLine1, bothLine2].map (·.world), Bare w1 := by
  intro w1 h p hp
  simp only [List.map_cons, List.map_nil, List.mem_cons, List.not_mem_nil, or_false] at h
  rcases h with rfl | rfl | rfl <;> cases hp

theorem both_plain : PlainlySays someExt someFixed world0 ([bothLine1, bothLine2].map fun l => (l.opt, l.val, l.world)) := by
  have o1 : bothWorld1.opened = bothWorld1 := opened_bare (both_bare _ (by simp [bothLine1]))
  have o0 : world0.opened = world0 := opened_bare (both_bare _ (by simp))
  refine .cons (w1 := bothWorld1) ?_ (.cons (w1 := bothWorld2) ?_ (.nil _))
  · rw [o0]
    exact .prim _ _ _ _ "set" [.sym (.named "both"), bothFn] _ _ _ rfl rfl (.cons _ _ _ _ _ _ _ _ (.quote _ _ _)
      (.cons _ _ _ _ _ _ _ _ (.lam _ _ _ _) (.nil _ _))) (.prim _ _ _ _ _ rfl (by intro x u _ e; cases e; decide) rfl)
  · rw [o1]
    refine .prim _ _ _ _ "+" [.int 5, .int 1] _ bothWorld2 _ rfl rfl (.cons _ _ _ _ _ _ bothWorld2 _ ?_
      (.cons _ _ _ _ _ _ _ _ (.global _ _ _ _ rfl rfl) (.nil _ _))) (.prim _ _ _ _ _ rfl (by intro x u h; exact absurd h (by decide)) rfl)
    refine .app _ _ _ _ bothFn [.native 0 1, .int 5] _ _ _ _ rfl (.global _ _ _ _ rfl rfl) (.cons _ _ _ _ _ _ _ _ (.global _ _ _ _ rfl rfl)
      (.cons _ _ _ _ _ _ _ _ (.lit _ _ (.int 5)) (.nil _ _))) ?_
    refine .clo _ _ _ _ _ _ _ rfl (by decide) ?_
    have call : ∀ w : World (List Int), Plain.Apply someExt someFixed w (.native 0 1) [.int 5] (.int 5) { w with rest := 5 :: w.rest } :=
      fun w => .native _ _ _ _ _ _ rfl rfl
    refine .app _ _ _ _ (.native 0 1) [.int 5] _ _ { bothWorld1 with rest := 5 :: bothWorld1.rest } _ rfl (.local _ _ _ _ rfl)
      (.cons _ _ _ _ _ _ _ _ ?_ (.nil _ _)) (call _)
    exact .app _ _ _ _ (.native 0 1) [.int 5] _ _ _ _ rfl (.local _ _ _ _ rfl)
      (.cons _ _ _ _ _ _ _ _ (.local _ _ _ _ rfl) (.nil _ _)) (call _)

theorem both_session : Session someExt world0 [(both1, bothFn, bothWorld1), (both2, .int 6, bothWorld2)] := by
  apply XSession.cons (o := .now bothFn)
  · sev
  apply XSession.cons (o := .now (.int 6))
  · sev
  exact .nil _

theorem both_opt_session : Session someExt world0 [(.seq both1 both2', .int 6, bothWorld2)] := by
  apply XSession.cons (o := .now (.int 6))
  · sev
  exact .nil _

theorem repl_program_of {mt : Macro.Macros} {r k k' : Nat} {d : Datum} {e : Core} (h : Macro.macroexpand mt r d k = some (e.form, k'))
    (hok : Macro.okCore (· ∈ Toc.keywords) e) : Repl.program mt r d k = some (e, k') := by
  simp [Repl.program, h, formOf_form e hok]

theorem both_script : Script (fun _ => Macro.initMacros) someFixed someExt 30 1 world0 [bothLine1, bothLine2] where
  says := by
    have o1 : bothWorld1.opened = bothWorld1 := opened_bare (both_bare _ (by simp [bothLine1]))
    have o0 : world0.opened = world0 := opened_bare (both_bare _ (by simp))
    have := Boot.session_eval both_session
    cases this with
    | cons h1 h2 =>
      cases h2 with
      | cons h2 =>
        exact .cons (by rw [o0]; exact h1) (.cons (by simp only [bothLine1]; rw [o1]; exact h2) (.nil _))
  plain := ⟨_, by simp, both_plain⟩
  expands := ⟨1, repl_program_of (by decide +kernel) (by simp [bothLine1, both1, Macro.okCore, Macro.okCores, Toc.keywords]),
    1, repl_program_of (by decide +kernel) (by simp [bothLine2, both2, Macro.okCore, Macro.okCores, Toc.keywords]), trivial⟩
  safe := by
    intro l hl
    simp only [List.mem_cons, List.not_mem_nil, or_false] at hl
    rcases hl with rfl | rfl
    · exact ⟨rfl, by decide +kernel, by simp [bothLine1, both1, Core.noKeyword, Core.noKeywords]⟩
    · exact ⟨rfl, by decide +kernel, by simp [bothLine2, both2', Core.noKeyword, Core.noKeywords]⟩
  tidy := by intro p hp; cases hp
  orderly := by
    refine ⟨?_, ?_, ?_, ?_, trivial⟩ <;> intro p hp <;> cases hp

def bothText : Bytes := ascii "
(defun both (f a) (f (f a))) 
(let g (lambda (y) (+ y 2)) (+ (both log (g 3)) x)) "

theorem both_isText : IsText bothText ([bothLine1, bothLine2].map (·.src)) := by
  obtain ⟨ts, h, ht⟩ := isText_lines (ds := [bothLine1, bothLine2].map (·.src)) (ss := _) (show _ = List.map some [_, _] from rfl)
    (by decide +kernel)
  have : ts = [ascii "(defun both (f a) (f (f a)))", ascii "(let g (lambda (y) (+ y 2)) (+ (both log (g 3)) x))"] := by
    have e : ts.map some = [ascii "(defun both (f a) (f (f a)))", ascii "(let g (lambda (y) (+ y 2)) (+ (both log (g 3)) x))"].map some :=
      h.trans (by decide +kernel)
    exact (List.map_inj_right (fun a b h => Option.some.inj h)).mp e
  rw [this] at ht
  exact ht

theorem both_optimised (c : Bytes) : Boot.Optimised Boot.bootSetting 100 3
    ⟨bothText, inOrder both1 ([bothLine2].map (·.prog)), .seq both1 both2', c, .int 6, world0⟩ 0 1 5 (Boot.optLams (.seq both1 both2')) :=
  Boot.optimised_of bothText (.seq both1 both2) (.seq both1 both2') c _ _ 0 1 5 _ (by decide +kernel)
    (by simp [both1, both2, Macro.okCore, Macro.okCores, Toc.keywords]) (by decide +kernel)
    (by decide +kernel) rfl (by decide +kernel) (by decide +kernel)

/-- The hypotheses of `C94_same_partial` hold of a text that defines a function and calls it with `log`: the interpreter answers 6 in the
end, loading the compiled text gives 6, and both have logged 5 twice. -/
example : ∃ c, Boot.compileToC Boot.bootSetting 100 bothText 0 = some (c, 5) ∧ ∃ N t,
    (∀ n m f, N ≤ n → N ≤ m → N ≤ f → repl (step someBase 30 f) n m bothText ⟨iWorld0, 1, []⟩ = .done t) ∧
    t.results.getLast? = some (.int 6) ∧ t.world.rest = [5, 5] ∧
    ∀ s : Mach (List Int), s.world = cWorld0 → InFrame 3 s →
      ∃ file s', readFile c = some file ∧ (∃ fuel, goText someOutside [c] fuel (s.loadSo 0 file.start) none = some s') ∧
        s'.res = .int 6 ∧ s'.world.rest = [5, 5] ∧ ∃ a b, t.world.globals (.named "both") = some a ∧ s'.world.globals (.named "both") = some b ∧
          isFunctionValue a = true ∧ isFunctionObject b = true := by
  obtain ⟨c, _, h, -⟩ := Boot.C83_file_partial (W := List Int) (both_optimised [])
  refine ⟨c, h, ?_⟩
  obtain ⟨N, t, a, h1, h2, h3⟩ := C94_same_partial (T := Boot.bootSetting) some_fit some_agree some_parametric Boot.some_blackBox Boot.some_adds
    world0_start world0_plain both_script both_bare both_isText (.int 6) (Boot.optFile_of (both_optimised c) h)
    ⟨_, _, both_opt_session⟩
  obtain ⟨N', t', h1', h2', h3'⟩ := C86_repl_partial some_fit Boot.some_blackBox Boot.some_adds world0_start both_script both_isText
  have e : t' = t := by
    have := (h1 (max N N') (max N N') (max N N') (by omega) (by omega) (by omega)).symm.trans
      (h1' (max N N') (max N N') (max N N') (by omega) (by omega) (by omega))
    cases this
    rfl
  subst e
  have ha : a = .int 6 := by
    simp only [List.map_cons, List.map_nil] at h2'
    generalize t'.results = l at h2 h2'
    cases h2' with
    | cons _ g =>
      cases g with
      | cons g g' => cases g'; cases h2; cases g; rfl
  subst ha
  refine ⟨N, t', h1, h2, h3'.rest, fun s hs hq => ?_⟩
  obtain ⟨file, s', f1, f2, f3, f4⟩ := h3 s hs hq
  have hres : s'.res = .int 6 := by
    generalize s'.res = x at f3
    cases f3 with
    | int => rfl
    | fn h => cases h
  refine ⟨file, s', f1, f2, hres, f4.rest.symm.trans h3'.rest, ?_⟩
  have o2 : Bare bothWorld2 := both_bare _ (by simp [bothLine2])
  have := h3'.globals (.named "both") bothFn
  rw [show endOf world0 [bothLine1, bothLine2] = bothWorld2 from rfl, opened_bare o2, means_bare o2] at this
  obtain ⟨a, g1, g2⟩ := this rfl
  have hfa := shows_fn g2 rfl
  rcases f4.globals (.named "both") with ⟨e, _⟩ | ⟨a', b, e1, e2, e3⟩
  · rw [g1] at e; cases e
  · rw [g1] at e1
    cases e1
    refine ⟨a, b, g1, e2, hfa, ?_⟩
    cases e3 <;> first | cases hfa | assumption

/-- the hypotheses of `C94_program_partial` hold of two forms -/
example (text : Bytes) (ht : IsText text [.list [kw "def", kw "y", Macro.setG.form], Macro.setG.form]) :=
  C94_program_partial (T := Boot.bootSetting) (k := 1) (K := 1) (mt := Macro.initMacros) (k1 := 1) ⟨rfl, rfl, Macro.initMacros_std, rfl⟩ (Nat.le_refl 1)
    ht (by intro d h; cases h; simp [Datum.list, kw]) rfl (g := fun d => if d = Macro.setG.form then .expr Macro.setG else .define (.named "y") Macro.setG)
    (by
      intro x hx
      simp only [List.mem_cons, List.not_mem_nil, or_false] at hx
      have st : ∀ k, Macro.TopTurns Macro.initMacros Macro.setG.form k (.expr Macro.setG) k := fun k =>
        let t := Macro.setG_turns Macro.initMacros_std rfl k
        ⟨t.run, t.le, t.ok⟩
      rcases hx with rfl | rfl
      · rw [if_neg (by decide)]
        exact ⟨fun k _ => ⟨k, Macro.turns_define Macro.initMacros_std (Macro.setG_turns Macro.initMacros_std rfl k)⟩, rfl⟩
      · rw [if_pos rfl]
        exact ⟨fun k _ => ⟨k, st k⟩, rfl⟩)

end Cora.Twice
