import Verif.Lemmas.PevalSteps
/-
C55: partial evaluation. The property as stated is false: `C55_*_wrong` show programs that change their meaning. It holds for
runs that the checks of Spec/PevalOk.lean find harmless.
-/
open Spec.Lang
namespace Cora.Peval

variable {W : Type}

/-- C55, for sessions whose partial evaluation is harmless: a session of forms that have values still has values when every form is
replaced by its partial evaluation. The values look the same, and so do the global variables at the end; the rest of the world is the
same. Missing: runs that are not harmless, where the property is false in general (see below), programs without a value, and
code that looks into functions. -/
theorem C55_harmless_session_partial (E : Ext W) (hE : E.BlackBox) (hA : E.Adds) (n : Nat) (es es' : List Core)
    (hp : es.mapM (peval n []) = some es') (hh : es.all (harmless n [] []) = true)
    (w : World W) (vs : List Val) (w1 : World W) (hr : Runs E w es vs w1) :
    ∃ vs' w1', Runs E w es' vs' w1' ∧ LooksAll vs vs' ∧ SameWorld Looks w1 w1' := by
  have h := mapM_steps (Γ := []) (n := n) (σ := []) (fun e e' => peval_steps n [] [] e e') hp hh
  rw [substAll_nil] at h
  exact runs_layers hE hA (layers_all h) hr

theorem looks_data : ∀ {d : Datum} {v : Val}, Looks d.val v → v = d.val
  | .int _, _, .int _ => rfl
  | .bool _, _, .bool _ => rfl
  | .nil, _, .nil => rfl
  | .str _, _, .str _ => rfl
  | .sym _, _, .sym _ => rfl
  | .cons a d, _, .cons h1 h2 => by rw [looks_data h1, looks_data h2]; rfl

/-- C55, for one form with data as its value -/
theorem C55_harmless_data_partial (E : Ext W) (hE : E.BlackBox) (hA : E.Adds) (n : Nat) (e e' : Core)
    (hp : peval n [] e = some e') (hh : harmless n [] [] e = true) (w : World W) (d : Datum) (w1 : World W)
    (hr : Eval E [] w e d.val w1) : ∃ w1', Eval E [] w e' d.val w1' ∧ SameWorld Looks w1 w1' := by
  obtain ⟨vs', w1', h1, h2, h3⟩ := C55_harmless_session_partial E hE hA n [e] [e'] (by simp [hp]) (by simp [hh]) w [d.val] w1
    (.cons _ _ _ _ _ _ _ hr (.nil _))
  cases h1 with
  | cons _ _ _ v _ _ _ h4 h5 =>
    cases h5
    cases h2 with
    | cons h6 h7 =>
      obtain rfl := looks_data h6
      exact ⟨w1', h4, h3⟩

/-! ### a case -/

/-- an outside that only adds and subtracts -/
def adder : Ext Unit where
  prim p args _ :=
    match args with
    | [.int x, .int y] => if p = "+" then some (.int (x + y), ()) else if p = "-" then some (.int (x - y), ()) else none
    | _ => none
  native _ _ _ := none

theorem adder_blackBox : adder.BlackBox where
  prim V hV p us us' r v r' h h1 := by
    simp only [adder] at h1
    split at h1
    · rename_i x y
      cases h with
      | cons ha h =>
        cases h with
        | cons hb h =>
          cases h
          rw [hV.int] at ha hb
          subst ha hb
          refine ⟨v, h1, ?_⟩
          split at h1
          · cases h1; exact (hV.int _ _).2 rfl
          · split at h1
            · cases h1; exact (hV.int _ _).2 rfl
            · cases h1
    · cases h1
  native V hV id us us' w w' v w1 h hw h1 := by cases h1

theorem adder_adds : adder.Adds where
  plus _ _ _ := rfl
  minus _ _ _ := rfl

/-- variables by name -/
abbrev x_ (s : String) : Core := .var (.named s)
abbrev n_ (i : Int) : Core := .lit (.int i)

/-- a world where `g` is 5 and `f` always returns 7 -/
def someWorld : World Unit where
  globals x := if x = .named "g" then some (.int 5) else
    if x = .named "f" then some (.clo [.named "a", .named "b"] (n_ 7) []) else none
  rest := ()

/-- `(let k (lambda (a b) (if (not false) (+ a (car (cons b ()))) 0)) (do (set 'h (k 1 (+ g 2))) h))` -/
def someProgram : Core :=
  .bind (.named "k") (.lam [.named "a", .named "b"] (.ite (call "not" [.lit (.bool false)])
    (call "+" [x_ "a", call "car" [call "cons" [x_ "b", .lit .nil]]]) (n_ 0)))
    (.seq (call "set" [.quote (.sym (.named "h")), .app (x_ "k") [n_ 1, call "+" [x_ "g", n_ 2]]]) (x_ "h"))

/-- `(do (set 'h ((lambda (b) (+ 1 b)) (+ g 2))) h)` -/
def someResult : Core :=
  .seq (call "set" [.quote (.sym (.named "h")), .app (.lam [.named "b"] (call "+" [n_ 1, x_ "b"])) [call "+" [x_ "g", n_ 2]]]) (x_ "h")

theorem someProgram_peval : peval 12 [] someProgram = some someResult := by rfl
theorem someProgram_harmless : harmless 12 [] [] someProgram = true := by decide +kernel

example : ∃ w1 w1', Eval adder [] someWorld someProgram (.int 8) w1 ∧ Eval adder [] someWorld someResult (.int 8) w1' := by
  have h : ∃ w1, Eval adder [] someWorld someProgram (.int 8) w1 := ⟨_, evalF_sound 20 rfl⟩
  obtain ⟨w1, h1⟩ := h
  obtain ⟨w1', h2, _⟩ := C55_harmless_data_partial adder adder_blackBox adder_adds 12 _ _ someProgram_peval someProgram_harmless
    someWorld (.int 8) w1 h1
  exact ⟨w1, w1', h1, h2⟩

/-! ### where it goes wrong -/

/-- a program that means something else after partial evaluation -/
def Wrong (e : Core) : Prop :=
  ∃ n e' d d' w1 w1', peval n [] e = some e' ∧ d ≠ d' ∧ Eval adder [] someWorld e (Datum.val d) w1 ∧
    Eval adder [] someWorld e' (Datum.val d') w1'

theorem val_inj : ∀ {d d' : Datum}, d.val = d'.val → d = d'
  | .cons a b, .cons a' b', h => by
    simp only [Datum.val, Val.cons.injEq] at h
    rw [val_inj h.1, val_inj h.2]
  | .int _, d', h => by cases d' <;> simp_all [Datum.val]
  | .bool _, d', h => by cases d' <;> simp_all [Datum.val]
  | .nil, d', h => by cases d' <;> simp_all [Datum.val]
  | .str _, d', h => by cases d' <;> simp_all [Datum.val]
  | .sym _, d', h => by cases d' <;> simp_all [Datum.val]

/-- a wrong program contradicts the property -/
theorem C55_wrong_contradicts (e : Core) (h : Wrong e) :
    ¬ ∀ n e', peval n [] e = some e' → ∀ d w1, Eval adder [] someWorld e (Datum.val d) w1 →
      ∃ w1', Eval adder [] someWorld e' d.val w1' := by
  intro hk
  obtain ⟨n, e', d, d', w1, w1', h1, h2, h3, h4⟩ := h
  obtain ⟨w2, h5⟩ := hk n e' h1 d w1 h3
  obtain ⟨h6, _⟩ := eval_det h4 h5
  exact h2 (val_inj h6).symm

/-- a variable is put into the scope of another variable with the same name:
`(let y (+ g 0) ((let x y (lambda (y) x)) 3))` is 5, but partial evaluation gives 3 -/
theorem C55_capture_wrong : Wrong (.bind (.named "y") (call "+" [x_ "g", n_ 0])
    (.app (.bind (.named "x") (x_ "y") (.lam [.named "y"] (x_ "x"))) [n_ 3])) :=
  ⟨12, _, .int 5, .int 3, _, _, rfl, by decide, evalF_sound 20 rfl, evalF_sound 20 rfl⟩

/-- a function is put into the scope of another variable with the same name:
`(let y (+ g 0) (let k (lambda () y) ((lambda (y) (k)) (+ g 1))))` is 5, but partial evaluation gives 6 -/
theorem C55_function_capture_wrong : Wrong (.bind (.named "y") (call "+" [x_ "g", n_ 0])
    (.bind (.named "k") (.lam [] (x_ "y")) (.app (.lam [.named "y"] (.app (x_ "k") [])) [call "+" [x_ "g", n_ 1]]))) :=
  ⟨12, _, .int 5, .int 6, _, _, rfl, by decide, evalF_sound 20 rfl, evalF_sound 20 rfl⟩

/-- the value of a global variable is read too late: `(let x g (do (set 'g 2) x))` is 5, but partial evaluation gives 2 -/
theorem C55_global_wrong : Wrong (.bind (.named "x") (x_ "g") (.seq (call "set" [.quote (.sym (.named "g")), n_ 2]) (x_ "x"))) :=
  ⟨12, _, .int 5, .int 2, _, _, rfl, by decide, evalF_sound 20 rfl, evalF_sound 20 rfl⟩

/-- an effect is dropped: `(do (car (cons 1 (set 'g 2))) g)` is 2, but partial evaluation gives 5 -/
theorem C55_effect_wrong : Wrong (.seq (call "car" [call "cons" [n_ 1, call "set" [.quote (.sym (.named "g")), n_ 2]]]) (x_ "g")) :=
  ⟨12, _, .int 2, .int 5, _, _, rfl, by decide, evalF_sound 20 rfl, evalF_sound 20 rfl⟩

/-- a parameter with the name of a builtin function is ignored: `((lambda (+) (+ 1 2)) f)` is 7, but partial evaluation gives 3 -/
theorem C55_builtin_wrong : Wrong (.app (.lam [.named "+"] (call "+" [n_ 1, n_ 2])) [x_ "f"]) :=
  ⟨12, _, .int 7, .int 3, _, _, rfl, by decide, evalF_sound 20 rfl, evalF_sound 20 rfl⟩

/-- a local function named `cons` counts as unused: `(let cons (lambda (a b) 7) (cons 1 ()))` is 7, but partial evaluation gives a
list -/
theorem C55_cons_wrong : Wrong (.bind (.named "cons") (.lam [.named "a", .named "b"] (n_ 7)) (call "cons" [n_ 1, .lit .nil])) :=
  ⟨12, _, .int 7, .cons (.int 1) .nil, _, _, rfl, by decide, evalF_sound 20 rfl, evalF_sound 20 rfl⟩

end Cora.Peval
