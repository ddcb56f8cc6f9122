import Verif.Model.Repl
import Verif.Lemmas.Repl
import Verif.Lemmas.Toc
import Verif.Props.Script
import Verif.Props.Source
import Verif.Props.Peval
/-
C86: a script does what its text says.
-/
open Spec Spec.Lang
namespace Cora.Repl
open Script
variable {W : Type}

/-- What is outside of the interpreter is as the language has it: arithmetic, functions of the outside and, for worlds that are seen to be the
same, the macros. -/
structure Fit (B : Base W) (fixed : Lang.Sym → Bool) (mac : World W → Macro.Macros) (E : Ext W) : Prop where
  prim : ∀ p us vs w, Interp.Sames us vs → (∃ u v r, B.prim p us w = some (u, r) ∧ E.prim p vs w = some (v, r) ∧ Interp.Same u v) ∨
    (B.prim p us w = none ∧ E.prim p vs w = none)
  native : ∀ ex imp, Tidily fixed ex imp → ∀ id us vs w w', Interp.Sames us vs →
    Interp.SameWorld ⟨ex, imp, B.prim, B.native, fixed⟩ w w' →
    Interp.SameResult ⟨ex, imp, B.prim, B.native, fixed⟩ (B.native id us w) (E.native id vs w')
  primFixed : ∀ p, (primArity p).isSome → fixed (.named p) = true
  macros : ∀ u w, ShowsWorld u w → B.macros u = mac w

/-- a process whose global variables have the values of the language's -/
structure Start (u : Interp.World W) (w : World W) : Prop where
  rest : u.rest = w.rest
  globals : ∀ x, Interp.SameOpt (u.globals x) (w.globals x)
  prims : ∀ p, (primArity p).isSome → ∀ v, w.globals (.named p) = some v → v = .prim p

/-- a form of a script: its text as data, the program it is expanded to, that program optimised, and the value and the world that the
language defines for the program (not for the optimised one) -/
structure Line (W : Type) where
  src : Datum
  prog : Core
  opt : Core
  val : Val
  world : World W

/-- the forms expand to their programs, each with the macros that are known then -/
def Expands (mac : World W → Macro.Macros) (r : Nat) : Nat → World W → List (Line W) → Prop
  | _, _, [] => True
  | k, w, l :: ls => ∃ k', program (mac w) r l.src k = some (l.prog, k') ∧ Expands mac r k' l.world ls

/-- partial evaluation of the form is safe (C55), and no keyword is called -/
structure Safe (r : Nat) (l : Line W) : Prop where
  optimised : Peval.peval r [] l.prog = some l.opt
  harmless : harmless r [] [] l.prog = true
  calls : l.opt.noKeyword

/-! ### what is seen -/

theorem shows_of {a : Interp.Val} {v : Val} (h : Interp.Same a v) : ∀ {v0 : Val}, Looks v0 v → Shows a v0 := by
  induction h with
  | int n => intro v0 h; cases h; exact .int _
  | bool n => intro v0 h; cases h; exact .bool _
  | nil => intro v0 h; cases h; exact .nil
  | str n => intro v0 h; cases h; exact .str _
  | sym n => intro v0 h; cases h; exact .sym _
  | cons _ _ ih1 ih2 => intro v0 h; cases h with | cons h1 h2 => exact .cons (ih1 h1) (ih2 h2)
  | prim p => intro v0 h; cases h; exact .prim _
  | native id n => intro v0 h; cases h; exact .native _ _
  | @pap f f' args args' _ hl _ ih1 ih2 =>
    intro v0 h
    cases h with
    | @pap g _ gs _ h1 h2 =>
      have key : ∀ {us vs : List Val}, LooksAll us vs → us.length = vs.length ∧
          ∀ i (h : i < us.length) (h' : i < vs.length), Looks us[i] vs[i] := by
        intro us vs h
        induction us generalizing vs with
        | nil => cases h; exact ⟨rfl, fun i h => by simp at h⟩
        | cons u us ih =>
          cases h with
          | cons h1 h2 =>
            obtain ⟨a, b⟩ := ih h2
            refine ⟨by simp [a], fun i h h' => ?_⟩
            cases i with
            | zero => exact h1
            | succ i => exact b i (by simpa using h) (by simpa using h')
      obtain ⟨e1, e2⟩ := key h2
      exact .pap (ih1 h1) (hl.trans e1.symm) fun i hi hi' => ih2 i hi (by omega) (e2 i hi' (by omega))
  | clo => intro v0 h; cases h with | clo h1 => exact .clo h1.symm

/-! ### names -/

theorem ofPackage_qualified (p : String) (x : Lang.Sym) : (ofPackage p x).qualified := by
  simp [ofPackage, Lang.Sym.qualified, Lang.Sym.text]

theorem resolve_none {ex : String → List Lang.Sym} {imp : List String} {x : Lang.Sym} (h : ∀ p ∈ imp, x ∉ ex p) :
    resolveGlobal ex "" imp x = x := by
  unfold resolveGlobal
  rw [List.find?_eq_none.mpr (by simpa using h)]
  simp [own]

theorem resolve_cases (ex : String → List Lang.Sym) (imp : List String) (x : Lang.Sym) :
    (resolveGlobal ex "" imp x = x ∧ ∀ p ∈ imp, x ∉ ex p) ∨ ∃ p ∈ imp, x ∈ ex p ∧ resolveGlobal ex "" imp x = ofPackage p x := by
  cases h : imp.find? fun p => decide (x ∈ ex p) with
  | none =>
    have : ∀ p ∈ imp, x ∉ ex p := by simpa using h
    exact .inl ⟨resolve_none this, this⟩
  | some p =>
    refine .inr ⟨p, List.mem_of_find?_eq_some h, by simpa using List.find?_some h, ?_⟩
    unfold resolveGlobal
    rw [h]

theorem resolve_tidy {fixed : Lang.Sym → Bool} {ex : String → List Lang.Sym} {imp : List String} (h : Tidily fixed ex imp) {x : Lang.Sym}
    (hx : x.qualified ∨ x.primitive = true ∨ fixed x = false) : resolveGlobal ex "" imp x = x :=
  resolve_none fun p hp hm => by
    obtain ⟨h1, h2, h3, _⟩ := h p hp x hm
    rcases hx with hx | hx | hx
    · exact h1 hx
    · rw [h2] at hx; cases hx
    · rw [h3] at hx; cases hx

/-- the names through which exports are seen are not set -/
theorem name_fixed {fixed : Lang.Sym → Bool} {ex : String → List Lang.Sym} {imp : List String} (h : Tidily fixed ex imp) (x : Lang.Sym)
    (hx : fixed x = false) (y : Lang.Sym) : Macro.lookupVar ex y "" imp = x ↔ y = x := by
  rw [Macro.lookupVar_eq]
  constructor
  · intro he
    rcases resolve_cases ex imp y with ⟨h1, _⟩ | ⟨p, hp, hm, h1⟩
    · rw [← he, h1]
    · rw [← he, h1, (h p hp y hm).2.2.2] at hx
      cases hx
  · rintro rfl
    exact resolve_tidy h (.inr (.inr hx))

theorem agree_of {B : Base W} {fixed mac} {E : Ext W} (hF : Fit B fixed mac E) {ex : String → List Lang.Sym} {imp : List String}
    (h : Tidily fixed ex imp) : Interp.Agree ⟨ex, imp, B.prim, B.native, fixed⟩ E :=
  ⟨hF.prim, hF.native ex imp h, hF.primFixed, name_fixed h⟩

/-! ### from form to form -/

theorem texts_eq : ∀ d : Datum, texts d = d.texts
  | .cons (.str s) d => by simp [texts, Datum.texts, texts_eq d]
  | .nil | .int _ | .bool _ | .str _ | .sym _ => rfl
  | .cons (.int _) _ | .cons (.bool _) _ | .cons .nil _ | .cons (.sym _) _ | .cons (.cons _ _) _ => rfl

theorem syms_eq : ∀ d : Datum, syms d = d.names
  | .cons (.sym s) d => by simp [syms, Datum.names, syms_eq d]
  | .nil | .int _ | .bool _ | .str _ | .sym _ => rfl
  | .cons (.int _) _ | .cons (.bool _) _ | .cons .nil _ | .cons (.str _) _ | .cons (.cons _ _) _ => rfl

theorem valueOr_eq {u : Interp.World W} {w : World W} {x : Lang.Sym} (h : Interp.SameOpt (u.globals x) (w.globals x)) :
    valueOr u x = w.data x := by
  unfold valueOr World.data
  cases hu : u.globals x <;> cases hw : w.globals x <;> rw [hu, hw] at h <;> cases h
  · rfl
  · rename_i h
    simp only [Option.bind_some, Interp.same_toDatum h]

theorem imported_eq {u : Interp.World W} {w : World W} (h : ∀ x : Lang.Sym, x.qualified → Interp.SameOpt (u.globals x) (w.globals x)) :
    imported u = w.imported := by
  unfold imported World.imported
  rw [valueOr_eq (h _ (by decide)), texts_eq]

theorem exported_eq {u : Interp.World W} {w : World W} (h : ∀ x : Lang.Sym, x.qualified → Interp.SameOpt (u.globals x) (w.globals x)) :
    exported u = w.exported := by
  funext p
  unfold exported World.exported
  rw [show Lang.Sym.named (p ++ ("#" ++ "*ns-export*")) = ofPackage p (.named "*ns-export*") from rfl,
    valueOr_eq (h _ (ofPackage_qualified p _)), syms_eq]

/-- the process is in the state of the language -/
structure Inv (B : Base W) (fixed : Lang.Sym → Bool) (u : Interp.World W) (w : World W) : Prop where
  imported : imported u = w.imported
  exported : exported u = w.exported
  same : Interp.SameWorld (B.setting fixed u) u w.opened
  tidy : w.Tidy fixed

theorem inv_start {B : Base W} {fixed : Lang.Sym → Bool} {u : Interp.World W} {w : World W} (h : Start u w) (ht : w.Tidy fixed) : Inv B fixed u w := by
  have h1 := imported_eq fun x _ => h.globals x
  have h2 := exported_eq fun x _ => h.globals x
  refine ⟨h1, h2, ⟨h.rest, fun x => ?_, fun p hp v hv => ?_⟩, ht⟩
  · simp only [Base.setting, Macro.lookupVar_eq, h1, h2, World.opened]
    exact h.globals _
  · refine h.prims p hp v ?_
    simp only [World.opened, World.means] at hv
    rwa [resolve_tidy ht (.inr (.inl (by simpa [Lang.Sym.primitive] using hp)))] at hv

theorem inv_next {B : Base W} {fixed : Lang.Sym → Bool} {u u1 : Interp.World W} {w w1 : World W} (h : Inv B fixed u w)
    (hs : Interp.SameWorld (B.setting fixed u) u1 w1) (hk : w.Keeps w1) (ht : w1.Tidy fixed) : Inv B fixed u1 w1 := by
  have hg : ∀ x : Lang.Sym, resolveGlobal w.exported "" w.imported x = x → Interp.SameOpt (u1.globals x) (w1.globals x) := by
    intro x hx
    have := hs.globals x
    simp only [Base.setting, Macro.lookupVar_eq, h.imported, h.exported, hx] at this
    exact this
  have hq : ∀ x : Lang.Sym, x.qualified → Interp.SameOpt (u1.globals x) (w1.globals x) := fun x hx => hg x (resolve_tidy h.tidy (.inl hx))
  have h1 := imported_eq hq
  have h2 := exported_eq hq
  refine ⟨h1, h2, ⟨hs.rest, fun x => ?_, fun p hp v hv => ?_⟩, ht⟩
  · simp only [Base.setting, Macro.lookupVar_eq, h1, h2, World.opened, World.means]
    rcases resolve_cases w1.exported w1.imported x with ⟨he, hn⟩ | ⟨p, _, _, he⟩
    · rw [he]
      refine hg x (resolve_none fun p hp hm => ?_)
      obtain ⟨q, hq, hm'⟩ := hk p hp x hm
      exact hn q hq hm'
    · rw [he]
      exact hq _ (ofPackage_qualified _ _)
  · refine hs.prims p hp v ?_
    simp only [World.opened, World.means] at hv
    rwa [resolve_tidy ht (.inr (.inl (by simpa [Lang.Sym.primitive] using hp)))] at hv

theorem tidy_alike {fixed : Lang.Sym → Bool} {w w' : World W} (h : SameWorld Looks w w') (ht : w.Tidy fixed) : w'.Tidy fixed := by
  unfold World.Tidy
  rw [← imported_alike looks_likeness h, ← exported_alike looks_likeness h]
  exact ht

theorem keeps_alike {w w' w1 w1' : World W} (h : SameWorld Looks w w') (h1 : SameWorld Looks w1 w1') (hk : w.Keeps w1) : w'.Keeps w1' := by
  unfold World.Keeps
  rw [← imported_alike looks_likeness h, ← exported_alike looks_likeness h, ← imported_alike looks_likeness h1, ← exported_alike looks_likeness h1]
  exact hk

theorem shows_world {B : Base W} {fixed : Lang.Sym → Bool} {u : Interp.World W} {w w' : World W} (hi : Inv B fixed u w') (hl : SameWorld Looks w w') :
    ShowsWorld u w := by
  have hm := means_alike looks_likeness hl
  refine ⟨hi.same.rest.trans (by simpa [World.opened] using hl.rest.symm), fun x hx => ?_, fun x v hx => ?_⟩
  · have h1 := hi.same.globals x
    simp only [Base.setting, Macro.lookupVar_eq, hi.imported, hi.exported] at h1
    rw [(opened_alike looks_likeness hl).unset x hx] at h1
    rw [hm]
    unfold World.means
    cases hu : u.globals (resolveGlobal w'.exported "" w'.imported x) with
    | none => rfl
    | some a => rw [hu] at h1; cases h1
  · have h1 := hi.same.globals x
    simp only [Base.setting, Macro.lookupVar_eq, hi.imported, hi.exported] at h1
    obtain ⟨v', h2, h3⟩ := (opened_alike looks_likeness hl).globals x v hx
    rw [h2] at h1
    rw [hm]
    unfold World.means
    cases hu : u.globals (resolveGlobal w'.exported "" w'.imported x) with
    | none => rw [hu] at h1; cases h1
    | some a =>
      rw [hu] at h1
      cases h1 with
      | some h1 => exact ⟨a, rfl, shows_of h1 h3⟩

/-- the world at the end -/
def endOf (w : World W) (ls : List (Line W)) : World W := (ls.getLast?.map (·.world)).getD w

theorem endOf_cons (w : World W) (l : Line W) (ls : List (Line W)) : endOf w (l :: ls) = endOf l.world ls := by
  cases ls <;> simp [endOf, List.getLast?_cons]

theorem step_eq {B : Base W} {r n : Nat} {s : State W} {d : Datum} {v : Sexp} (hv : d.sexp = some v) {c c' : Core} {k u w}
    (hp : program (B.macros s.world) r d s.count = some (c, k)) (ho : Peval.peval r [] c = some c')
    (he : Interp.eval (B.setting (fun _ => false) s.world) n c'.form [] s.world = some (u, w)) :
    step B r n s v = some ⟨w, k, s.results ++ [u]⟩ := by
  simp [step, Toc.datumOf_sexp d hv, hp, ho, he]

theorem forms_run {B : Base W} {fixed mac} {E : Ext W} (hF : Fit B fixed mac E) {r : Nat} : ∀ (ls : List (Line W))
    {k : Nat} {u : Interp.World W} {w w' : World W} {rs : List Interp.Val} {obs : List (Core × Val × World W)} {ss : List Sexp},
    Inv B fixed u w' → SameWorld Looks w w' → Expands mac r k w ls → (∀ l ∈ ls, Safe r l) → Orderly fixed w (ls.map (·.world)) →
    obs.map (·.1) = ls.map (·.opt) → PlainlySays E fixed w' obs → Pairs Looks (ls.map fun l => (l.prog, l.val, l.world)) obs →
    ls.map (·.src.sexp) = ss.map some →
    ∃ N s', (∀ n ≥ N, runAll (step B r n) ⟨u, k, rs⟩ ss = some s') ∧ (∃ us, s'.results = rs ++ us ∧ ShowsAll us (ls.map (·.val))) ∧
      ShowsWorld s'.world (endOf w ls)
  | [], k, u, w, w', rs, obs, ss, hi, hl, _, _, _, _, _, _, hss => by
    cases ss with
    | cons => simp at hss
    | nil => exact ⟨0, ⟨u, k, rs⟩, fun _ _ => rfl, ⟨[], by simp, .nil⟩, shows_world hi hl⟩
  | l :: ls, k, u, w, w', rs, obs, ss, hi, hl, hx, hsafe, hord, hobs, hplain, hpairs, hss => by
    obtain ⟨k', hx1, hx2⟩ := hx
    obtain ⟨hk, ht, hord⟩ := hord
    cases ss with
    | nil => simp at hss
    | cons v ss =>
      simp only [List.map_cons, List.cons.injEq] at hss
      cases hplain with
      | nil => simp at hobs
      | @cons _ e v' w1' obs h1 h2 =>
        simp only [List.map_cons, List.cons.injEq] at hobs
        obtain ⟨rfl, hobs⟩ := hobs
        cases hpairs with
        | cons p1 p2 p3 =>
          have hsl := hsafe l (by simp)
          have hA := agree_of hF (B := B) (ex := exported u) (imp := imported u) (by rw [hi.imported, hi.exported]; exact hi.tidy)
          obtain ⟨N1, a, u1, e1, e2, e3⟩ := Interp.C40_complete_partial hA hsl.calls (env := []) (env' := [])
            (fun x _ => .none) hi.same h1
          have hi1 := inv_next hi e2 (keeps_alike hl p2 hk) (tidy_alike p2 ht)
          obtain ⟨N2, s', f1, ⟨us, f2, f3⟩, f4⟩ := forms_run hF ls (k := k') (rs := rs ++ [a]) hi1 p2 hx2
            (fun l hl => hsafe l (by simp [hl])) hord hobs h2 p3 hss.2
          refine ⟨max N1 N2, s', fun n hn => ?_, ⟨a :: us, by simp [f2], .cons (shows_of e1 p1) f3⟩, by rwa [endOf_cons]⟩
          have hst : step B r n ⟨u, k, rs⟩ v = some ⟨u1, k', rs ++ [a]⟩ :=
            step_eq hss.1 (by rw [hF.macros u w (shows_world hi hl)]; exact hx1) hsl.optimised (e3 n (by omega))
          simp only [runAll, hst, Option.bind_some]
          exact f1 n (by omega)

/-- the forms of the script, with all that is asked of them -/
structure Script (mac : World W → Macro.Macros) (fixed : Lang.Sym → Bool) (E : Ext W) (r k : Nat) (w : World W) (ls : List (Line W)) : Prop where
  /-- the language defines the values and the worlds -/
  says : Says E w (ls.map fun l => (l.prog, l.val, l.world))
  /-- the optimised forms keep to what the interpreter handles (C40) -/
  plain : ∃ obs, obs.map (·.1) = ls.map (·.opt) ∧ PlainlySays E fixed w obs
  expands : Expands mac r k w ls
  safe : ∀ l ∈ ls, Safe r l
  /-- the packages are in order, before the first form and after each -/
  tidy : w.Tidy fixed
  orderly : Orderly fixed w (ls.map (·.world))

theorem mapM_opt {r : Nat} : ∀ {l : List (Line W)}, (∀ i ∈ l, Peval.peval r [] i.prog = some i.opt) →
    (l.map (·.prog)).mapM (Peval.peval r []) = some (l.map (·.opt))
  | [], _ => rfl
  | a :: l, h => by simp [List.mapM_cons, h a (by simp), mapM_opt (l := l) (fun j hj => h j (by simp [hj]))]

theorem script_run {B : Base W} {fixed mac} {E : Ext W} (hF : Fit B fixed mac E) (hB : E.BlackBox) (hP : E.Adds) {r k : Nat}
    {u : Interp.World W} {w : World W} (hu : Start u w) {ls : List (Line W)} (h : Script mac fixed E r k w ls) (rs : List Interp.Val)
    {ss : List Sexp} (hss : ls.map (·.src.sexp) = ss.map some) :
    ∃ N s', (∀ n ≥ N, runAll (step B r n) ⟨u, k, rs⟩ ss = some s') ∧ (∃ us, s'.results = rs ++ us ∧ ShowsAll us (ls.map (·.val))) ∧
      ShowsWorld s'.world (endOf w ls) := by
  obtain ⟨obs, h1, h2⟩ := h.plain
  refine forms_run hF ls (inv_start hu h.tidy) (Peval.same_looks (E := E) Peval.same_refl) h.expands h.safe h.orderly h1 h2 ?_ hss
  refine says_optimised hB hP (r := r) h.says ?_ ?_ h2
  · simp only [List.map_map, Function.comp_def, h1]
    exact mapM_opt fun i hi => (h.safe i hi).optimised
  · simp only [List.map_map, Function.comp_def, List.all_map, List.all_eq_true]
    exact fun i hi => (h.safe i hi).harmless

/-- how much fuel reading needs depends on the text alone -/
theorem repl_reads {σ : Type} {t : Bytes} {ds : List Sexp} (h : FileText t ds) :
    ∃ N, ∀ (step : σ → Sexp → Option σ) n m s, N ≤ n → N ≤ m →
      repl step n m t s = match runAll step s ds with | some s => .done s | none => .stopped := by
  induction h with
  | done hw =>
    refine ⟨1, fun step n m s hn hm => ?_⟩
    obtain ⟨n, rfl⟩ : ∃ k, n = k + 1 := ⟨n - 1, by omega⟩
    obtain ⟨m, rfl⟩ : ∃ k, m = k + 1 := ⟨m - 1, by omega⟩
    rw [repl, Reader.sexpRead, Reader.eat_only_blanks hw]
    rfl
  | @form k t d r ds h hk _ ih =>
    obtain ⟨N1, h1⟩ := Reader.text_reads h r hk
    obtain ⟨N2, h2⟩ := ih
    refine ⟨max N1 N2 + 1, fun step n m s hn hm => ?_⟩
    obtain ⟨m, rfl⟩ : ∃ k, m = k + 1 := ⟨m - 1, by omega⟩
    rw [repl, h1 n (by omega)]
    simp only [runAll]
    cases hs : step s d with
    | none => rfl
    | some s' =>
      simp only [Option.bind_some]
      exact h2 step n m s' (by omega) (by omega)

/-- **C86**, interactive. Forms are typed, in any layout and with any comments; the language defines a value for each, in the world that the
forms before have left. Then each is answered with its value, and at the end of the input the global variables have the values that the
language says. Missing: what C40 and C55 leave out, that is, forms without a value, calls with too few or too many arguments, functions
of more than three parameters, partial evaluation that is not harmless; and macros defined in the script itself. -/
theorem C86_repl_partial {B : Base W} {fixed mac} {E : Ext W} (hF : Fit B fixed mac E) (hB : E.BlackBox) (hP : E.Adds) {r k : Nat}
    {u : Interp.World W} {w : World W} (hu : Start u w) {ls : List (Line W)} (h : Script mac fixed E r k w ls)
    {text : Bytes} (ht : IsText text (ls.map (·.src))) :
    ∃ N s', (∀ n m f, N ≤ n → N ≤ m → N ≤ f → repl (step B r f) n m text ⟨u, k, []⟩ = .done s') ∧
      ShowsAll s'.results (ls.map (·.val)) ∧ ShowsWorld s'.world (endOf w ls) := by
  obtain ⟨ss, ht, hss⟩ := ht
  obtain ⟨N1, s', h1, ⟨us, h2, h3⟩, h4⟩ := script_run hF hB hP hu h [] (ss := ss) (by simpa only [List.map_map, Function.comp_def] using hss)
  obtain ⟨N2, h5⟩ := repl_reads (σ := State W) ht
  refine ⟨max N1 N2, s', fun n m f hn hm hf => ?_, by rw [h2]; exact h3, h4⟩
  rw [h5 (step B r f) n m _ (by omega) (by omega), h1 f (by omega)]

/-! ### scripts -/

theorem strings_same : ∀ l : List String, Interp.Same (strings l) (textList l)
  | [] => .nil
  | s :: l => .cons (.str s) (strings_same l)

theorem start_args {u : Interp.World W} {w : World W} (h : Start u w) (args : List String) :
    Start (Interp.setGlobal u (.named "*command-line-args*") (strings args)) (w.set (.named "*command-line-args*") (textList args)) := by
  refine ⟨h.rest, fun x => ?_, fun p hp v hv => ?_⟩
  · simp only [Interp.setGlobal, World.set]
    split
    · exact .some (strings_same args)
    · exact h.globals x
  · simp only [World.set] at hv
    split at hv
    · rename_i he
      cases he
      cases hp
    · exact h.prims p hp v hv

theorem text_utf8 (s : String) : text s.toUTF8.data.toList = s := by
  unfold text
  rw [Toc.fromUTF8_toUTF8]
  rfl

/-- **C86**. A script has a first line of at most 253 bytes (see C82 for longer ones and for the buffer), and then forms, in any layout and
with any comments. If the language defines a value for each form, in the world that the forms before have left, starting with the arguments
in `*command-line-args*`, then the script runs to its end, and then the global variables and everything outside are as the language
says. What is missing: see `C86_repl_partial`. -/
theorem C86_script_partial {B : Base W} {fixed mac} {E : Ext W} (hF : Fit B fixed mac E) (hB : E.BlackBox) (hP : E.Adds) {r k : Nat}
    {u : Interp.World W} {w : World W} (hu : Start u w) (prog : Bytes) (args : List String) {ls : List (Line W)}
    (h : Script mac fixed E r k (w.set (.named "*command-line-args*") (textList args)) ls)
    {buf : Nat → Byte} (hb : buf 254 ≠ 10) {line : Bytes} (hn : 10 ∉ line) (hl : line.length ≤ 253)
    {text : Bytes} (ht : IsText text (ls.map (·.src))) :
    ∃ N s', (∀ n m f, N ≤ n → N ≤ m → N ≤ f →
        script (step B r f) setArgs buf (prog :: args.map fun a => a.toUTF8.data.toList) n m (line ++ 10 :: text) ⟨u, k, []⟩ = .done s') ∧
      ShowsAll s'.results (ls.map (·.val)) ∧
      ShowsWorld s'.world (endOf (w.set (.named "*command-line-args*") (textList args)) ls) := by
  obtain ⟨N, s', h1, h2, h3⟩ := C86_repl_partial hF hB hP (start_args hu args) h ht
  refine ⟨N, s', fun n m f hn' hm hf => ?_, h2, h3⟩
  have ha : commandLineArgs (prog :: args.map fun a => a.toUTF8.data.toList) = args.map fun a => a.toUTF8.data.toList := by
    have hf : ∀ (l acc : List Bytes), l.foldl (fun args a => a :: args) acc = l.reverse ++ acc := by
      intro l
      induction l with
      | nil => intro acc; rfl
      | cons a l ih => intro acc; simp [ih]
    simp [commandLineArgs, hf]
  simp only [script, skip_short hb hn hl text, ha, setArgs, List.map_map, Function.comp_def, text_utf8, List.map_id']
  exact h1 n m f hn' hm hf

/-- **C86**, the program of a form: it is the form expanded, as in C42 to C46, and its names stay what they are; a definition sets the
variable with its name. -/
theorem C86_program_partial {mt : Macro.Macros} {K : Nat} {d : Datum} (h : Macro.TopExpandable mt K d) {k : Nat} (hk : K ≤ k) :
    ∃ t k', Macro.TopExpansions mt K [d] [t] ∧ ∃ N, ∀ r, N ≤ r → program mt r d k = some (t.resolve mt.ex "" [], k') := by
  obtain ⟨t, k', h⟩ := h k hk
  have h7 := Toc.formOf_form _ (Toc.ok_resolveTops mt.ex "" [] t [] h.ok (by simp))
  have h8 := Macro.nsParse_tops (mt := mt) (ex := mt.ex) [] t [] (ns := "") h.ok (by simp)
  obtain ⟨N, hN⟩ := h.run
  refine ⟨t, k', .cons ⟨k, k', hk, h⟩ .nil, N + 1, fun r hr => ?_⟩
  obtain ⟨m, rfl⟩ : ∃ m, r = m + 1 := ⟨r - 1, by omega⟩
  simp only [Macro.doTops, resolveTops] at h7 h8
  unfold program
  rw [Macro.macroexpand]
  simp [bind, StateT.bind, hN m (by omega), h8, h7, liftM, monadLift, MonadLift.monadLift, StateT.lift]

example := C86_program_partial (Macro.top_define (x := .named "y") Macro.initMacros_std (Macro.setG_expandable 1)) (Nat.le_refl 1)

/-! ### a case -/

theorem blank_file {t : Bytes} {ss : List Sexp} (h : FileText t ss) : FileText (32 :: t) ss := by
  cases h with
  | done hw => exact .done (.blank (.inl rfl) hw)
  | @form k' t' _ r' _ g1 g2 g3 =>
    have := FileText.form (t := [32] ++ t') (.blank (.blank (.inl rfl) .nil) g1) g2 g3
    simpa using this

/-- printed forms, one on a line -/
theorem isText_lines : ∀ {ds : List Datum} {ss : List Sexp}, ds.map Datum.sexp = ss.map some → (∀ s ∈ ss, Toc.printable s = true) →
    ∃ ts : List Bytes, ts.map some = ss.map Reader.printObj ∧ IsText (ts.flatMap fun t => 10 :: t ++ [32]) ds
  | [], [], _, _ => ⟨[], rfl, [], .done .nil, rfl⟩
  | [], _ :: _, h, _ => by simp at h
  | _ :: _, [], h, _ => by simp at h
  | d :: ds, s :: ss, h, hp => by
    simp only [List.map_cons, List.cons.injEq] at h
    obtain ⟨ts, h1, ss', h2, h3⟩ := isText_lines h.2 fun x hx => hp x (by simp [hx])
    obtain ⟨⟨t, k, e, x⟩, -⟩ := Reader.print_text s (Toc.printable_spec (hp s (by simp)))
    refine ⟨t :: ts, by simp [e, h1], s :: ss', ?_, by simp [h.1, h3]⟩
    have hb : Blanks [10] := .blank (.inr ⟨by decide, by decide⟩) .nil
    have := FileText.form (k := k) (t := [10] ++ t) (d := s) (r := [32] ++ ts.flatMap fun t => 10 :: t ++ [32]) (ds := ss') (.blank hb x)
      (by intro _ c r e; cases e; simp [IsDelim, IsBlank]) ?_
    · simpa using this
    · exact blank_file h2

/-- the variable with the imported packages -/
abbrev importedVar : Lang.Sym := .named "cora/init#*imported*"

/-- `import` for packages that are already loaded, and a function that adds one -/
def demoExt : Ext Unit where
  prim := Peval.adder.prim
  native id args w :=
    match id, args with
    | 0, [.str s] => some (.nil, w.set importedVar (.cons (.str s) ((w.globals importedVar).getD .nil)))
    | 1, [.int n] => some (.int (n + 1), w)
    | _, _ => none

def demoMacros : Macro.Macros where
  fn := fun | .named s => Macro.stdMacro s | .gen _ => none
  protect := .gen 0
  ex := fun _ => []

def demoBase : Base Unit where
  macros _ := demoMacros
  prim p args _ :=
    match args with
    | [.int x, .int y] => if p = "+" then some (.int (x + y), ()) else if p = "-" then some (.int (x - y), ()) else none
    | _ => none
  native id args w :=
    match id, args with
    | 0, [.str s] => some (.nil, Interp.setGlobal w importedVar (.cons (.str s) ((w.globals importedVar).getD .nil)))
    | 1, [.int n] => some (.int (n + 1), w)
    | _, _ => none

/-- primitives, `f` and `p#f` are not set -/
def demoFixed (x : Lang.Sym) : Bool := x.primitive || x = .named "f" || x = .named "p#f"

def demoWorld : World Unit :=
  ⟨fun x => match x with
    | .named "import" => some (.native 0 1)
    | .named "p#f" => some (.native 1 1)
    | .named "p#*ns-export*" => some (.cons (.sym (.named "f")) .nil)
    | .named "cora/init#*imported*" => some .nil
    | .named p => if p ≠ "integer?" ∧ (primArity p).isSome then some (.prim p) else none
    | _ => none, ()⟩

def demoStart : Interp.World Unit :=
  ⟨fun x => match x with
    | .named "import" => some (.native 0 1)
    | .named "p#f" => some (.native 1 1)
    | .named "p#*ns-export*" => some (.cons (.sym (.named "f")) .nil)
    | .named "cora/init#*imported*" => some .nil
    | .named p => if p ≠ "integer?" ∧ (primArity p).isSome then some (.prim p) else none
    | _ => none, ()⟩

theorem demo_start : Start demoStart demoWorld where
  rest := rfl
  globals x := by
    simp only [demoStart, demoWorld]
    split
    · exact .some (.native _ _)
    · exact .some (.native _ _)
    · exact .some (.cons (.sym _) .nil)
    · exact .some .nil
    · split
      · exact .some (.prim _)
      · exact .none
    · exact .none
  prims p hp v hv := by
    simp only [demoWorld] at hv
    split at hv
    · rename_i h; cases h; cases hp
    · rename_i h; cases h; cases hp
    · rename_i h; cases h; cases hp
    · rename_i h; cases h; cases hp
    · rename_i h
      cases h
      split at hv <;> cases hv
      rfl
    · cases hv

theorem demo_blackBox : demoExt.BlackBox where
  prim := Peval.adder_blackBox.prim
  native V hV id us us' w w' v w1 h hw h1 := by
    simp only [demoExt] at h1
    split at h1
    · rename_i s
      cases h with
      | cons ha h =>
        cases h
        rw [hV.str] at ha
        subst ha
        cases h1
        refine ⟨_, _, rfl, (hV.nil _).2 rfl, hw.rest, fun x hx => ?_, fun x v hx => ?_⟩
        · simp only [World.set] at hx ⊢
          split at hx
          · cases hx
          · rename_i he
            rw [if_neg he]
            exact hw.unset x hx
        · simp only [World.set] at hx ⊢
          split at hx
          · rename_i he
            rw [if_pos he]
            cases hx
            refine ⟨_, rfl, (hV.cons _ _ _).2 ⟨_, _, rfl, (hV.str _ _).2 rfl, ?_⟩⟩
            cases hg : w.globals importedVar with
            | none => rw [hw.unset _ hg]; exact (hV.nil _).2 rfl
            | some a =>
              obtain ⟨a', h2, h3⟩ := hw.globals _ a hg
              rw [h2]
              exact h3
          · rename_i he
            rw [if_neg he]
            exact hw.globals x v hx
    · rename_i n
      cases h with
      | cons ha h =>
        cases h
        rw [hV.int] at ha
        subst ha
        cases h1
        exact ⟨_, _, rfl, (hV.int _ _).2 rfl, hw⟩
    · cases h1

theorem demo_fit : Fit demoBase demoFixed (fun _ => demoMacros) demoExt where
  prim p us vs w h := by
    simp only [demoBase, demoExt, Peval.adder]
    cases h with
    | nil => exact .inr ⟨rfl, rfl⟩
    | cons h1 h =>
      cases h with
      | nil => cases h1 <;> exact .inr ⟨rfl, rfl⟩
      | cons h2 h =>
        cases h with
        | cons => cases h1 <;> cases h2 <;> exact .inr ⟨rfl, rfl⟩
        | nil =>
          cases h1 <;> cases h2 <;> try exact .inr ⟨rfl, rfl⟩
          dsimp only
          by_cases hp : p = "+"
          · simp only [if_pos hp]; exact .inl ⟨_, _, _, rfl, rfl, .int _⟩
          · by_cases hm : p = "-"
            · simp only [if_neg hp, if_pos hm]; exact .inl ⟨_, _, _, rfl, rfl, .int _⟩
            · simp only [if_neg hp, if_neg hm]; exact .inr ⟨trivial, trivial⟩
  native ex imp ht id us vs w w' h hw := by
    simp only [demoBase, demoExt]
    have hA : Interp.Agree (W := Unit) ⟨ex, imp, fun _ _ _ => none, fun _ _ _ => none, demoFixed⟩ ⟨fun _ _ _ => none, fun _ _ _ => none⟩ :=
      ⟨fun _ _ _ _ _ => .inr ⟨rfl, rfl⟩, fun _ _ _ _ _ _ _ => .none, fun p hp => by simp [demoFixed, Lang.Sym.primitive, hp], name_fixed ht⟩
    split
    · rename_i s
      cases h with
      | cons h1 h =>
        cases h
        cases h1
        refine .some .nil ?_
        have hf : demoFixed importedVar = false := by decide
        have hcur : Interp.Same ((w.globals importedVar).getD .nil) ((w'.globals importedVar).getD .nil) := by
          have := hw.globals importedVar
          rw [(name_fixed ht _ hf _).mpr rfl] at this
          generalize w.globals importedVar = a at this ⊢
          generalize w'.globals importedVar = b at this ⊢
          cases this with
          | none => exact .nil
          | some h => exact h
        have := Interp.set_same hA (x := importedVar) hf (Interp.Same.cons (.str s) hcur) ⟨hw.rest, hw.globals, hw.prims⟩
        exact ⟨this.rest, this.globals, this.prims⟩
    · cases h with
      | cons h1 h =>
        cases h
        cases h1
        exact .some (.int _) hw
    · rename_i h0 h1
      split
      · cases h with
        | cons h2 h => cases h; cases h2; exact absurd rfl (h0 _ rfl)
      · cases h with
        | cons h2 h => cases h; cases h2; exact absurd rfl (h1 _ rfl)
      · exact .none
  primFixed p hp := by simp [demoFixed, Lang.Sym.primitive, hp]
  macros _ _ _ := rfl

/-- `(import "p")` -/
def demo1 : Core := .app (.var (.named "import")) [.lit (.str "p")]
/-- `(defun g (x) (f x))` -/
def demo2 : Core := .app (.var (.named "set")) [.quote (kw "g"), .lam [.named "x"] (.app (.var (.named "f")) [.var (.named "x")])]
/-- `(+ (g 1) 2)` -/
def demo3 : Core := .app (.var (.named "+")) [.app (.var (.named "g")) [.lit (.int 1)], .lit (.int 2)]

/-- what `g` is -/
def demoFn : Val := .clo [.named "x"] (.app (.var (.named "f")) [.var (.named "x")]) []

def demoArgs : World Unit := demoWorld.set (.named "*command-line-args*") (textList ["s.cora"])
def demoWorld1 : World Unit := demoArgs.opened.set importedVar (.cons (.str "p") .nil)
def demoWorld2 : World Unit := demoWorld1.opened.set (.named "g") demoFn

def demoLines : List (Line Unit) :=
  [⟨.list [kw "import", .str "p"], demo1, demo1, .nil, demoWorld1⟩,
   ⟨.list [kw "defun", kw "g", .list [kw "x"], .list [kw "f", kw "x"]], demo2, demo2, demoFn, demoWorld2⟩,
   ⟨.list [kw "+", .list [kw "g", .int 1], .int 2], demo3, demo3, .int 4, demoWorld2.opened⟩]

theorem demo_plain : PlainlySays demoExt demoFixed demoArgs (demoLines.map fun l => (l.opt, l.val, l.world)) := by
  refine .cons (w1 := demoWorld1) ?_ (.cons (w1 := demoWorld2) ?_ (.cons (w1 := demoWorld2.opened) ?_ (.nil _)))
  · exact .app _ _ _ _ (.native 0 1) [.str "p"] _ _ _ _ rfl (.global _ _ _ _ rfl rfl) (.cons _ _ _ _ _ _ _ _ (.lit _ _ _) (.nil _ _))
      (.native _ _ _ _ _ _ rfl rfl)
  · exact .prim _ _ _ _ "set" [.sym (.named "g"), demoFn] _ _ _ rfl rfl (.cons _ _ _ _ _ _ _ _ (.quote _ _ _)
      (.cons _ _ _ _ _ _ _ _ (.lam _ _ _ _) (.nil _ _))) (.prim _ _ _ _ _ rfl (by intro x u _ e; cases e; decide) rfl)
  · refine .prim _ _ _ _ "+" [.int 2, .int 2] _ demoWorld2.opened _ rfl rfl (.cons _ _ _ _ _ _ demoWorld2.opened _ ?_
      (.cons _ _ _ _ _ _ _ _ (.lit _ _ (.int 2)) (.nil _ _))) (.prim _ _ _ _ _ rfl (by intro x u h; exact absurd h (by decide)) rfl)
    refine .app _ _ _ _ demoFn [.int 1] _ _ _ _ rfl (.global _ _ _ _ rfl rfl) (.cons _ _ _ _ _ _ _ _ (.lit _ _ (.int 1)) (.nil _ _)) ?_
    refine .clo _ _ _ _ _ _ _ rfl (by decide) ?_
    exact .app _ _ _ _ (.native 1 1) [.int 1] _ _ _ _ rfl (.global _ _ _ _ rfl rfl)
      (.cons _ _ _ _ _ _ _ _ (.local _ _ _ _ rfl) (.nil _ _)) (.native _ _ _ _ _ _ rfl rfl)

theorem demo_script : Script (fun _ => demoMacros) demoFixed demoExt 20 1 demoArgs demoLines where
  says := says_plain demo_plain
  plain := ⟨_, by simp [demoLines], demo_plain⟩
  expands := ⟨1, rfl, 1, rfl, 1, rfl, trivial⟩
  safe := by
    intro l hl
    simp only [demoLines, List.mem_cons, List.not_mem_nil, or_false] at hl
    rcases hl with rfl | rfl | rfl
    · exact ⟨rfl, by decide +kernel, by simp [demo1, Core.noKeyword, Core.noKeywords]⟩
    · exact ⟨rfl, by decide +kernel, by simp [demo2, Core.noKeyword, Core.noKeywords]⟩
    · exact ⟨rfl, by decide +kernel, by simp [demo3, Core.noKeyword, Core.noKeywords]⟩
  tidy := by
    have : demoArgs.imported = [] := by rfl
    intro p hp
    rw [this] at hp
    cases hp
  orderly := by
    have i0 : demoArgs.imported = [] := by rfl
    have i1 : demoWorld1.imported = ["p"] := by rfl
    have e1 : demoWorld1.exported "p" = [.named "f"] := by rfl
    have i2 : demoWorld2.imported = ["p"] := by rfl
    have e2 : demoWorld2.exported "p" = [.named "f"] := by rfl
    have i3 : demoWorld2.opened.imported = ["p"] := by rfl
    have e3 : demoWorld2.opened.exported "p" = [.named "f"] := by rfl
    have tidy : ∀ w : World Unit, w.imported = ["p"] → w.exported "p" = [.named "f"] → w.Tidy demoFixed := by
      intro w hi he p hp x hx
      rw [hi, List.mem_singleton] at hp
      subst hp
      rw [he, List.mem_singleton] at hx
      subst hx
      decide
    have keeps : ∀ w w1 : World Unit, w.imported = ["p"] → w.exported "p" = [.named "f"] → w1.imported = ["p"] →
        w1.exported "p" = [.named "f"] → w.Keeps w1 := by
      intro w w1 hi he hi1 he1 p hp x hx
      rw [hi, List.mem_singleton] at hp
      subst hp
      rw [he] at hx
      exact ⟨"p", by rw [hi1]; simp, by rw [he1]; exact hx⟩
    refine ⟨?_, tidy _ i1 e1, keeps _ _ i1 e1 i2 e2, tidy _ i2 e2, keeps _ _ i2 e2 i3 e3, tidy _ i3 e3, trivial⟩
    intro p hp
    rw [i0] at hp
    cases hp

/-- The hypotheses of `C86_script_partial` hold of a script that imports a package, defines a function that uses what the package exports
and calls it: the last form has the value 4. -/
example : ∃ text : Bytes, ∃ N s', (∀ n m f, N ≤ n → N ≤ m → N ≤ f → script (step demoBase 20 f) setArgs (fun _ => 0)
      (ascii "cora" :: ["s.cora"].map fun a => a.toUTF8.data.toList) n m (ascii "#!/usr/bin/env cora" ++ 10 :: text) ⟨demoStart, 1, []⟩ = .done s') ∧
    ∃ c, s'.results = [.nil, c, .int 4] := by
  obtain ⟨ts, -, ht⟩ := isText_lines (ds := demoLines.map (·.src)) (ss := _) (show _ = List.map some
    [_, _, _] from rfl) (by decide +kernel)
  obtain ⟨N, s', h1, h2, -⟩ := C86_script_partial demo_fit demo_blackBox ⟨fun _ _ _ => rfl, fun _ _ _ => rfl⟩ demo_start (ascii "cora") ["s.cora"]
    demo_script (buf := fun _ => 0) (by decide) (line := ascii "#!/usr/bin/env cora") (by decide) (by decide) ht
  refine ⟨_, N, s', h1, ?_⟩
  simp only [demoLines, List.map_cons, List.map_nil] at h2
  generalize s'.results = l at h2
  cases h2 with
  | cons a h2 =>
    cases h2 with
    | cons b h2 =>
      cases h2 with
      | cons c h2 =>
        cases h2
        cases a
        cases c
        exact ⟨_, rfl⟩

/-! ### where a script does something else -/

/-- `(set 'q (lambda (a b c d) d))` -/
def four1 : Core := .app (.var (.named "set")) [.quote (kw "q"), .lam [.named "a", .named "b", .named "c", .named "d"] (.var (.named "d"))]
/-- `(q 1 2 3 4)` -/
def four2 : Core := .app (.var (.named "q")) [.lit (.int 1), .lit (.int 2), .lit (.int 3), .lit (.int 4)]

theorem stops {d1 d2 : Datum} {text : Bytes} (ht : IsText text [d1, d2]) {s : State W} {B : Base W} {r : Nat}
    (h : ∀ f v1 v2, d1.sexp = some v1 → d2.sexp = some v2 → runAll (step B r f) s [v1, v2] = none) :
    ∃ N, ∀ n m f, N ≤ n → N ≤ m → repl (step B r f) n m text s = .stopped := by
  obtain ⟨ss, h1, h2⟩ := ht
  match ss, h1, h2 with
  | [], _, h2 => simp at h2
  | [_], _, h2 => simp at h2
  | _ :: _ :: _ :: _, _, h2 => simp at h2
  | [v1, v2], h1, h2 =>
    simp only [List.map_cons, List.map_nil, List.cons.injEq, and_true] at h2
    obtain ⟨N, hN⟩ := repl_reads (σ := State W) h1
    refine ⟨N, fun n m f hn hm => ?_⟩
    rw [hN _ n m s hn hm, h f v1 v2 h2.1 h2.2]

/-- A script that defines a function of four parameters and calls it has a value in the language, but the process ends at the call. -/
theorem C86_four_parameters_wrong {text : Bytes} (ht : IsText text [four1.form, four2.form]) :
    (∃ v w1 w2, Says demoExt demoWorld [(four1, v, w1), (four2, .int 4, w2)]) ∧
    ∃ N, ∀ n m f, N ≤ n → N ≤ m → repl (step demoBase 20 f) n m text ⟨demoStart, 1, []⟩ = .stopped := by
  refine ⟨⟨_, _, _, .cons (evalF_sound 20 rfl) (.cons (evalF_sound 20 rfl) (.nil _))⟩, stops ht fun f v1 v2 h1 h2 => ?_⟩
  have e1 := Toc.datumOf_sexp _ h1
  have e2 := Toc.datumOf_sexp _ h2
  have key : ∀ s : State Unit, step demoBase 20 f ⟨demoStart, 1, []⟩ v1 = some s → step demoBase 20 f s v2 = none := by
    intro s hs
    have p1 : program demoMacros 20 four1.form 1 = some (four1, 1) := rfl
    have p2 : program demoMacros 20 four2.form 1 = some (four2, 1) := rfl
    have o1 : Peval.peval 20 [] four1 = some four1 := rfl
    have o2 : Peval.peval 20 [] four2 = some four2 := rfl
    simp only [step, e1, e2, Option.bind_eq_bind, Option.bind_some] at hs ⊢
    rw [show demoBase.macros demoStart = demoMacros from rfl, p1] at hs
    simp only [Option.bind_some, o1] at hs
    rcases f with _ | _ | _ | _ | _ | _ | _ | f
    all_goals
      cases hs
    all_goals
      rw [show ∀ w, demoBase.macros w = demoMacros from fun _ => rfl, p2]
      simp only [Option.bind_some, o2]
      rfl
  simp only [runAll]
  cases hs : step demoBase 20 f ⟨demoStart, 1, []⟩ v1 with
  | none => rfl
  | some s => simp [key s hs]

example : ∃ text, IsText text [four1.form, four2.form] := by
  obtain ⟨ts, -, ht⟩ := isText_lines (ds := [four1.form, four2.form]) (ss := _) (show _ = List.map some [_, _] from rfl) (by decide +kernel)
  exact ⟨_, ht⟩

end Cora.Repl
