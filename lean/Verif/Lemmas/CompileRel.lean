import Verif.Model.CompileRun
/-
Values of compiled programs that differ only in the code of functions, and the operations that respect that.
-/
open Spec.Lang
namespace Cora.Compile
variable {A B W : Type}

/-- relates the code of functions that take the given numbers of arguments and of captured variables -/
abbrev CodeRel (A B : Type) := Nat → Nat → A → B → Prop

mutual
/-- the same value, except that functions have code related by `R` -/
inductive VRel (R : CodeRel A B) : CVal A → CVal B → Prop where
  | int (n) : VRel R (.int n) (.int n)
  | bool (b) : VRel R (.bool b) (.bool b)
  | nil : VRel R .nil .nil
  | str (s) : VRel R (.str s) (.str s)
  | sym (x) : VRel R (.sym x) (.sym x)
  | cons {a d a' d'} : VRel R a a' → VRel R d d' → VRel R (.cons a d) (.cons a' d')
  | clo {n c c' caps caps'} : R n caps.length c c' → VRels R caps caps' → VRel R (.clo n c caps) (.clo n c' caps')
  | prim (p) : VRel R (.prim p) (.prim p)
  | pap {f f' args args'} : VRel R f f' → VRels R args args' → VRel R (.pap f args) (.pap f' args')
  | native (id n) : VRel R (.native id n) (.native id n)
inductive VRels (R : CodeRel A B) : List (CVal A) → List (CVal B) → Prop where
  | nil : VRels R [] []
  | cons {u v us vs} : VRel R u v → VRels R us vs → VRels R (u :: us) (v :: vs)
end

/-- both or none -/
inductive VOpt (R : CodeRel A B) : Option (CVal A) → Option (CVal B) → Prop where
  | none : VOpt R none none
  | some {u v} : VRel R u v → VOpt R (some u) (some v)

/-- the same for lists -/
inductive VsOpt (R : CodeRel A B) : Option (List (CVal A)) → Option (List (CVal B)) → Prop where
  | none : VsOpt R none none
  | some {u v} : VRels R u v → VsOpt R (some u) (some v)

/-- the same world -/
structure WRel (R : CodeRel A B) (w : CWorld A W) (w' : CWorld B W) : Prop where
  rest : w.rest = w'.rest
  globals : ∀ x, VOpt R (w.globals x) (w'.globals x)

/-- the same result -/
inductive RRel (R : CodeRel A B) : Option (CVal A × CWorld A W) → Option (CVal B × CWorld B W) → Prop where
  | none : RRel R none none
  | some {u v w w'} : VRel R u v → WRel R w w' → RRel R (some (u, w)) (some (v, w'))

/-- the outside does not look into functions -/
structure Parametric (O : Outside W) : Prop where
  prim : ∀ {A B : Type} (R : CodeRel A B) p us vs r, VRels R us vs →
    (∃ u v r', O.prim p us r = some (u, r') ∧ O.prim p vs r = some (v, r') ∧ VRel R u v) ∨
    (O.prim p us r = none ∧ O.prim p vs r = none)
  native : ∀ {A B : Type} (R : CodeRel A B) id us vs w w', VRels R us vs → WRel R w w' →
    RRel R (O.native id us w) (O.native id vs w')

/-- the same behaviour of calls -/
def ApRel (R : CodeRel A B) (ap : Call A W) (ap' : Call B W) : Prop :=
  ∀ f f' us vs w w', VRel R f f' → VRels R us vs → WRel R w w' → RRel R (ap f us w) (ap' f' vs w')

section
variable {R : CodeRel A B} {O : Outside W}

theorem vrel_cval : ∀ d : Datum, VRel R (cval d) (cval d)
  | .int n => .int n
  | .bool b => .bool b
  | .nil => .nil
  | .str s => .str s
  | .sym x => .sym x
  | .cons a d => .cons (vrel_cval a) (vrel_cval d)

theorem vrel_datum : ∀ {u : CVal A} {v : CVal B}, VRel R u v → u.datum = v.datum
  | .cons a d, .cons a' d', h => by
    cases h with
    | cons h1 h2 => simp only [CVal.datum, vrel_datum h1, vrel_datum h2]
  | .int _, _, h => by cases h; rfl
  | .bool _, _, h => by cases h; rfl
  | .nil, _, h => by cases h; rfl
  | .str _, _, h => by cases h; rfl
  | .sym _, _, h => by cases h; rfl
  | .clo _ _ _, _, h => by cases h; rfl
  | .prim _, _, h => by cases h; rfl
  | .pap _ _, _, h => by cases h; rfl
  | .native _ _, _, h => by cases h; rfl

theorem vrel_isTrue {u : CVal A} {v : CVal B} (h : VRel R u v) : u.isTrue = v.isTrue := by
  cases h <;> first | rfl | (rename_i b; cases b <;> rfl)

theorem vrels_length : ∀ {us : List (CVal A)} {vs : List (CVal B)}, VRels R us vs → us.length = vs.length
  | [], _, h => by cases h; rfl
  | _ :: _, _, h => by cases h with | cons _ h => simp [vrels_length h]

theorem vrel_arity : ∀ {u : CVal A} {v : CVal B}, VRel R u v → u.arity = v.arity
  | .pap f args, _, h => by
    cases h with
    | pap h1 h2 => simp only [CVal.arity, vrel_arity h1, vrels_length h2]
  | .int _, _, h => by cases h; rfl
  | .bool _, _, h => by cases h; rfl
  | .nil, _, h => by cases h; rfl
  | .str _, _, h => by cases h; rfl
  | .sym _, _, h => by cases h; rfl
  | .cons _ _, _, h => by cases h; rfl
  | .clo _ _ _, _, h => by cases h; rfl
  | .prim _, _, h => by cases h; rfl
  | .native _ _, _, h => by cases h; rfl

theorem coutside_rel (hO : Parametric O) {p us vs} {w : CWorld A W} {w' : CWorld B W} (h : VRels R us vs)
    (hw : WRel R w w') : RRel R (coutside O p us w) (coutside O p vs w') := by
  unfold coutside
  rcases hO.prim R p us vs w.rest h with ⟨u, v, r, h1, h2, h3⟩ | ⟨h1, h2⟩
  · rw [h1, ← hw.rest, h2]
    exact .some h3 ⟨rfl, hw.globals⟩
  · rw [h1, ← hw.rest, h2]
    exact .none

theorem set_rel {w : CWorld A W} {w' : CWorld B W} {x u v} (h : VRel R u v) (hw : WRel R w w') :
    WRel R (w.set x u) (w'.set x v) := by
  refine ⟨hw.rest, fun y => ?_⟩
  simp only [CWorld.set]
  split
  · exact .some h
  · exact hw.globals y

theorem cprim_other (O : Outside W) {p : String} {args : List (CVal A)} {w : CWorld A W}
    (h : p ∉ ["set", "car", "cdr", "cons", "cons?", "=", "not", "symbol?", "integer?", "string?"]) :
    cprim O p args w = coutside O p args w := by
  simp only [List.mem_cons, List.not_mem_nil, or_false, not_or] at h
  unfold cprim
  split <;> simp_all

theorem cprim_two (O : Outside W) {p : String} {a b : CVal A} {r : List (CVal A)} {w : CWorld A W}
    (h : p ∈ ["cons?", "symbol?", "integer?", "string?"]) :
    cprim O p (a :: b :: r) w = coutside O p (a :: b :: r) w := by
  simp only [List.mem_cons, List.not_mem_nil, or_false] at h
  unfold cprim
  rcases h with rfl | rfl | rfl | rfl <;> split <;> simp_all

theorem special_cases {p : String}
    (hp : ¬ p ∉ ["set", "car", "cdr", "cons", "cons?", "=", "not", "symbol?", "integer?", "string?"]) :
    p = "set" ∨ p = "car" ∨ p = "cdr" ∨ p = "cons" ∨ p = "cons?" ∨ p = "=" ∨ p = "not" ∨ p = "symbol?" ∨ p = "integer?" ∨
      p = "string?" := by
  simpa only [Classical.not_not, List.mem_cons, List.not_mem_nil, or_false] using hp

theorem cprim_rel0 (hO : Parametric O) {p} {w : CWorld A W} {w' : CWorld B W} (hw : WRel R w w')
    (hp : ¬ p ∉ ["set", "car", "cdr", "cons", "cons?", "=", "not", "symbol?", "integer?", "string?"]) :
    RRel R (cprim O p [] w) (cprim O p [] w') := by
  rcases special_cases hp with rfl | rfl | rfl | rfl | rfl | rfl | rfl | rfl | rfl | rfl <;> simp only [cprim] <;>
    first
    | exact .none
    | exact coutside_rel hO .nil hw

theorem cprim_rel1 (hO : Parametric O) {p u v} {w : CWorld A W} {w' : CWorld B W} (h1 : VRel R u v) (hw : WRel R w w')
    (hp : ¬ p ∉ ["set", "car", "cdr", "cons", "cons?", "=", "not", "symbol?", "integer?", "string?"]) :
    RRel R (cprim O p [u] w) (cprim O p [v] w') := by
  rcases special_cases hp with rfl | rfl | rfl | rfl | rfl | rfl | rfl | rfl | rfl | rfl <;> cases h1 <;>
    simp only [cprim] <;>
    first
    | exact .none
    | exact .some (.bool _) hw
    | exact .some (by assumption) hw
    | exact coutside_rel hO (.cons (by constructor <;> assumption) .nil) hw

theorem cprim_rel2 (hO : Parametric O) {p u v u2 v2} {w : CWorld A W} {w' : CWorld B W} (h1 : VRel R u v)
    (h2 : VRel R u2 v2) (hw : WRel R w w') (hset : p ≠ "set")
    (hp : ¬ p ∉ ["set", "car", "cdr", "cons", "cons?", "=", "not", "symbol?", "integer?", "string?"]) :
    RRel R (cprim O p [u, u2] w) (cprim O p [v, v2] w') := by
  by_cases heq : p = "="
  · subst heq
    simp only [cprim, vrel_datum h1, vrel_datum h2]
    cases v.datum <;> cases v2.datum
    · exact coutside_rel hO (.cons h1 (.cons h2 .nil)) hw
    · exact .some (.bool _) hw
    · exact .some (.bool _) hw
    · exact .some (.bool _) hw
  · by_cases ho : p ∈ ["cons?", "symbol?", "integer?", "string?"]
    · rw [cprim_two O ho, cprim_two O ho]
      exact coutside_rel hO (.cons h1 (.cons h2 .nil)) hw
    · rcases special_cases hp with rfl | rfl | rfl | rfl | rfl | rfl | rfl | rfl | rfl | rfl <;>
        first
        | exact absurd rfl hset
        | exact absurd rfl heq
        | exact absurd (by decide) ho
        | (simp only [cprim]; exact .none)
        | (simp only [cprim]; exact .some (.cons h1 h2) hw)

theorem cprim_rel3 (hO : Parametric O) {p u v u2 v2 u3 v3 us vs} {w : CWorld A W} {w' : CWorld B W} (h1 : VRel R u v)
    (h2 : VRel R u2 v2) (h3 : VRel R u3 v3) (h : VRels R us vs) (hw : WRel R w w')
    (hp : ¬ p ∉ ["set", "car", "cdr", "cons", "cons?", "=", "not", "symbol?", "integer?", "string?"]) :
    RRel R (cprim O p (u :: u2 :: u3 :: us) w) (cprim O p (v :: v2 :: v3 :: vs) w') := by
  by_cases ho : p ∈ ["cons?", "symbol?", "integer?", "string?"]
  · rw [cprim_two O ho, cprim_two O ho]
    exact coutside_rel hO (.cons h1 (.cons h2 (.cons h3 h))) hw
  · rcases special_cases hp with rfl | rfl | rfl | rfl | rfl | rfl | rfl | rfl | rfl | rfl <;>
    first
    | exact absurd (by decide) ho
    | (simp only [cprim]; exact .none)
    | (simp only [cprim]; exact coutside_rel hO (.cons h1 (.cons h2 (.cons h3 h))) hw)

/-- primitives respect the relation -/
theorem cprim_rel (hO : Parametric O) {p us vs} {w : CWorld A W} {w' : CWorld B W} (h : VRels R us vs)
    (hw : WRel R w w') : RRel R (cprim O p us w) (cprim O p vs w') := by
  by_cases hp : p ∉ ["set", "car", "cdr", "cons", "cons?", "=", "not", "symbol?", "integer?", "string?"]
  · rw [cprim_other O hp, cprim_other O hp]
    exact coutside_rel hO h hw
  · rcases h with _ | ⟨h1, h⟩
    · exact cprim_rel0 hO hw hp
    · rcases h with _ | ⟨h2, h⟩
      · exact cprim_rel1 hO h1 hw hp
      · rcases h with _ | ⟨h3, h⟩
        · by_cases hset : p = "set"
          · subst hset
            cases h1 <;> simp only [cprim] <;>
              first
              | exact .none
              | skip
            exact .some h2 (set_rel h2 hw)
          · exact cprim_rel2 hO h1 h2 hw hset hp
        · exact cprim_rel3 hO h1 h2 h3 h hw hp

theorem vrels_append : ∀ {us us' : List (CVal A)} {vs vs' : List (CVal B)}, VRels R us vs → VRels R us' vs' →
    VRels R (us ++ us') (vs ++ vs')
  | [], _, _, _, h, h' => by cases h; exact h'
  | _ :: _, _, _, _, h, h' => by cases h with | cons h1 h => exact .cons h1 (vrels_append h h')

theorem vrels_take : ∀ (n : Nat) {us : List (CVal A)} {vs : List (CVal B)}, VRels R us vs →
    VRels R (us.take n) (vs.take n)
  | 0, _, _, _ => by simpa using VRels.nil
  | n + 1, _, _, .nil => by simpa using VRels.nil
  | n + 1, _, _, .cons h1 h => by simpa using VRels.cons h1 (vrels_take n h)

theorem vrels_drop : ∀ (n : Nat) {us : List (CVal A)} {vs : List (CVal B)}, VRels R us vs →
    VRels R (us.drop n) (vs.drop n)
  | 0, _, _, h => by simpa using h
  | n + 1, _, _, .nil => by simpa using VRels.nil
  | n + 1, _, _, .cons h1 h => by simpa using vrels_drop n h

theorem vrels_get {us : List (CVal A)} {vs : List (CVal B)} (h : VRels R us vs) (i : Nat) : VOpt R us[i]? vs[i]? := by
  induction i generalizing us vs with
  | zero =>
    cases h with
    | nil => simpa using VOpt.none
    | cons h1 _ => simpa using VOpt.some h1
  | succ i ih =>
    cases h with
    | nil => simpa using VOpt.none
    | cons _ h => simpa using ih h

/-- the body of a function run with the same calls behaves the same -/
def RunRel (R : CodeRel A B)
    (run : Call A W → A → List (CVal A) → List (CVal A) → CWorld A W → Option (CVal A × CWorld A W))
    (run' : Call B W → B → List (CVal B) → List (CVal B) → CWorld B W → Option (CVal B × CWorld B W)) : Prop :=
  ∀ ap ap', ApRel R ap ap' → ∀ caps caps', VRels R caps caps' → ∀ us vs, VRels R us vs → ∀ w w', WRel R w w' →
    ∀ c c', R us.length caps.length c c' → RRel R (run ap c caps us w) (run' ap' c' caps' vs w')

/-- if running bodies respects the relation, so do calls with exactly the arguments -/
theorem exact_rel (hO : Parametric O) {enter : A → List (CVal A) → List (CVal A) → CWorld A W → Option (CVal A × CWorld A W)}
    {enter' : B → List (CVal B) → List (CVal B) → CWorld B W → Option (CVal B × CWorld B W)}
    (h : ∀ caps caps', VRels R caps caps' → ∀ us vs, VRels R us vs → ∀ w w', WRel R w w' →
      ∀ c c', R us.length caps.length c c' → RRel R (enter c caps us w) (enter' c' caps' vs w'))
    {w : CWorld A W} {w' : CWorld B W} (hw : WRel R w w') : ∀ {f : CVal A} {f' : CVal B} {us vs}, VRel R f f' → VRels R us vs →
      RRel R (exact O enter f us w) (exact O enter' f' vs w')
  | .pap f got, _, us, vs, hf, hs => by
    cases hf with
    | pap h1 h2 =>
      simp only [exact]
      exact exact_rel hO h hw h1 (vrels_append h2 hs)
  | .clo n c caps, _, us, vs, hf, hs => by
    cases hf with
    | clo h1 h2 =>
      simp only [exact, ← vrels_length hs]
      split
      · rename_i hl
        subst hl
        exact h _ _ h2 _ _ hs _ _ hw _ _ h1
      · exact .none
  | .prim p, _, us, vs, hf, hs => by
    cases hf
    simp only [exact, ← vrels_length hs]
    split
    · exact cprim_rel hO hs hw
    · exact .none
  | .native id n, _, us, vs, hf, hs => by
    cases hf
    simp only [exact, ← vrels_length hs]
    split
    · exact hO.native R _ _ _ _ _ hs hw
    · exact .none
  | .int _, _, us, vs, hf, hs => by cases hf; exact .none
  | .bool _, _, us, vs, hf, hs => by cases hf; exact .none
  | .nil, _, us, vs, hf, hs => by cases hf; exact .none
  | .str _, _, us, vs, hf, hs => by cases hf; exact .none
  | .sym _, _, us, vs, hf, hs => by cases hf; exact .none
  | .cons _ _, _, us, vs, hf, hs => by cases hf; exact .none

/-- `apply`; if `over` is false, functions are not called with more arguments than they take -/
def applyX (over : Bool) (O : Outside W)
    (run : Call A W → A → List (CVal A) → List (CVal A) → CWorld A W → Option (CVal A × CWorld A W)) : Nat → Call A W
  | 0, _, _, _ => none
  | n + 1, f, args, w =>
    match f.arity with
    | some a =>
      if args.length = a then exact O (run (applyX over O run n)) f args w
      else if args.length = 0 then some (f, w)
      else if args.length < a then some (.pap f args, w)
      else if over = true then
        match exact O (run (applyX over O run n)) f (args.take a) w with
        | some (g, w) => applyX over O run n g (args.drop a) w
        | none => none
      else none
    | none => none

theorem applyX_true (O : Outside W)
    (run : Call A W → A → List (CVal A) → List (CVal A) → CWorld A W → Option (CVal A × CWorld A W)) :
    ∀ n, applyX true O run n = apply O run n
  | 0 => by funext f args w; rfl
  | n + 1 => by
    funext f args w
    unfold applyX apply
    rw [applyX_true O run n]
    simp only [if_true]
    rfl

/-- if running bodies respects the relation, so does application -/
theorem applyX_rel (over : Bool) (hO : Parametric O)
    {run : Call A W → A → List (CVal A) → List (CVal A) → CWorld A W → Option (CVal A × CWorld A W)}
    {run' : Call B W → B → List (CVal B) → List (CVal B) → CWorld B W → Option (CVal B × CWorld B W)}
    (h : RunRel R run run') : ∀ n, ApRel R (applyX over O run n) (applyX over O run' n)
  | 0 => fun _ _ _ _ _ _ _ _ _ => .none
  | n + 1 => fun f f' us vs w w' hf hs hw => by
    have ih := applyX_rel over hO h n
    have hex : ∀ us vs, VRels R us vs →
        RRel R (exact O (run (applyX over O run n)) f us w) (exact O (run' (applyX over O run' n)) f' vs w') := fun us vs hs =>
      exact_rel hO (fun _ _ hc _ _ hs _ _ hw _ _ hR => h _ _ ih _ _ hc _ _ hs _ _ hw _ _ hR) hw hf hs
    unfold applyX
    rw [← vrel_arity hf, ← vrels_length hs]
    cases ha : f.arity with
    | some a =>
      simp only
      split
      · exact hex _ _ hs
      · split
        · exact .some hf hw
        · split
          · exact .some (.pap hf hs) hw
          · split
            · have := hex _ _ (vrels_take a hs)
              generalize exact O (run (applyX over O run n)) f (us.take a) w = r at this
              generalize exact O (run' (applyX over O run' n)) f' (vs.take a) w' = r' at this
              cases this with
              | none => exact .none
              | some h1 h2 => exact ih _ _ _ _ _ _ h1 (vrels_drop a hs) h2
            · exact .none
    | none => exact .none

theorem apply_rel (hO : Parametric O)
    {run : Call A W → A → List (CVal A) → List (CVal A) → CWorld A W → Option (CVal A × CWorld A W)}
    {run' : Call B W → B → List (CVal B) → List (CVal B) → CWorld B W → Option (CVal B × CWorld B W)}
    (h : RunRel R run run') (n : Nat) : ApRel R (apply O run n) (apply O run' n) := by
  rw [← applyX_true, ← applyX_true]
  exact applyX_rel true hO h n

end

end Cora.Compile
