import Verif.Model.CompileRun
import Verif.Lemmas.Compile
import Verif.Lemmas.CompileRel
import Verif.Spec.Late
/-
`parse` and `closure-convert`: the program with captured variables by number computes what the language says.
-/
open Spec.Lang
namespace Cora.Compile
variable {A W : Type}

/-! ### relations between values of the language and values of compiled programs -/

/-- element by element -/
inductive AllRel (V : Val → CVal A → Prop) : List Val → List (CVal A) → Prop where
  | nil : AllRel V [] []
  | cons {v u vs us} : V v u → AllRel V vs us → AllRel V (v :: vs) (u :: us)

/-- both or none -/
inductive OptRel (V : Val → CVal A → Prop) : Option Val → Option (CVal A) → Prop where
  | none : OptRel V none none
  | some {v u} : V v u → OptRel V (some v) (some u)

/-- the same global variables -/
structure WorldRel (V : Val → CVal A → Prop) (w : World W) (w' : CWorld A W) : Prop where
  rest : w.rest = w'.rest
  globals : ∀ x, OptRel V (w.globals x) (w'.globals x)

/-- the same result -/
inductive OutRel (V : Val → CVal A → Prop) : Option (Val × World W) → Option (CVal A × CWorld A W) → Prop where
  | none : OutRel V none none
  | some {v u w w'} : V v u → WorldRel V w w' → OutRel V (some (v, w)) (some (u, w'))

/-- functions -/
def valFn : Val → Bool
  | .clo _ _ _ | .prim _ | .pap _ _ | .native _ _ => true
  | _ => false

/-- functions -/
def CVal.isFn : CVal A → Bool
  | .clo _ _ _ | .prim _ | .pap _ _ | .native _ _ => true
  | _ => false

/-- a relation that tells data apart and can hold of functions only -/
structure Likeness (V : Val → CVal A → Prop) : Prop where
  int : ∀ n u, V (.int n) u ↔ u = .int n
  bool : ∀ b u, V (.bool b) u ↔ u = .bool b
  nil : ∀ u, V .nil u ↔ u = .nil
  str : ∀ s u, V (.str s) u ↔ u = .str s
  sym : ∀ x u, V (.sym x) u ↔ u = .sym x
  cons : ∀ a d u, V (.cons a d) u ↔ ∃ a' d', u = .cons a' d' ∧ V a a' ∧ V d d'
  fn : ∀ v u, V v u → valFn v = true → u.isFn = true

/-- the language and compiled programs agree about what is outside of both -/
structure Agree (E : Ext W) (O : Outside W) : Prop where
  prim : ∀ {A : Type} (V : Val → CVal A → Prop), Likeness V → ∀ p vs us r, AllRel V vs us →
    (∃ v u r', E.prim p vs r = some (v, r') ∧ O.prim p us r = some (u, r') ∧ V v u) ∨
    (E.prim p vs r = none ∧ O.prim p us r = none)
  native : ∀ {A : Type} (V : Val → CVal A → Prop), Likeness V → ∀ id vs us w w', AllRel V vs us → WorldRel V w w' →
    OutRel V (E.native id vs w) (O.native id us w')

section
variable {V : Val → CVal A → Prop}

theorem allRel_length {vs us} (h : AllRel V vs us) : vs.length = us.length := by
  induction h <;> simp_all

theorem allRel_append {a b c d} (h : AllRel V a b) (h' : AllRel V c d) : AllRel V (a ++ c) (b ++ d) := by
  induction h with
  | nil => exact h'
  | cons h1 _ ih => exact .cons h1 ih

theorem allRel_take : ∀ (n : Nat) {a b}, AllRel V a b → AllRel V (a.take n) (b.take n)
  | 0, _, _, _ => by simpa using AllRel.nil
  | n + 1, _, _, .nil => by simpa using AllRel.nil
  | n + 1, _, _, .cons h1 h => by simpa using AllRel.cons h1 (allRel_take n h)

theorem allRel_drop : ∀ (n : Nat) {a b}, AllRel V a b → AllRel V (a.drop n) (b.drop n)
  | 0, _, _, h => by simpa using h
  | n + 1, _, _, .nil => by simpa using AllRel.nil
  | n + 1, _, _, .cons h1 h => by simpa using allRel_drop n h

/-- the relation on data -/
theorem like_datum (hV : Likeness V) : ∀ (v : Val) (u : CVal A), V v u → v.datum = u.datum
  | .int n, u, h => by rw [(hV.int n u).mp h]; rfl
  | .bool n, u, h => by rw [(hV.bool n u).mp h]; rfl
  | .nil, u, h => by rw [(hV.nil u).mp h]; rfl
  | .str n, u, h => by rw [(hV.str n u).mp h]; rfl
  | .sym n, u, h => by rw [(hV.sym n u).mp h]; rfl
  | .cons a d, u, h => by
    obtain ⟨a', d', rfl, h1, h2⟩ := (hV.cons a d u).mp h
    simp only [Val.datum, CVal.datum, like_datum hV a a' h1, like_datum hV d d' h2]
    cases a'.datum <;> cases d'.datum <;> rfl
  | .clo _ _ _, u, h => by
    have := hV.fn _ _ h rfl
    cases u <;> first | rfl | simp [CVal.isFn] at this
  | .prim _, u, h => by
    have := hV.fn _ _ h rfl
    cases u <;> first | rfl | simp [CVal.isFn] at this
  | .pap _ _, u, h => by
    have := hV.fn _ _ h rfl
    cases u <;> first | rfl | simp [CVal.isFn] at this
  | .native _ _, u, h => by
    have := hV.fn _ _ h rfl
    cases u <;> first | rfl | simp [CVal.isFn] at this

theorem like_val (hV : Likeness V) : ∀ d : Datum, V d.val (cval d)
  | .int n => (hV.int n _).mpr rfl
  | .bool n => (hV.bool n _).mpr rfl
  | .nil => (hV.nil _).mpr rfl
  | .str n => (hV.str n _).mpr rfl
  | .sym n => (hV.sym n _).mpr rfl
  | .cons a d => (hV.cons _ _ _).mpr ⟨_, _, rfl, like_val hV a, like_val hV d⟩

theorem like_isTrue (hV : Likeness V) {v : Val} {u : CVal A} (h : V v u) : u.isTrue = true ↔ v = .bool true := by
  cases v with
  | int n => rw [(hV.int n u).mp h]; simp [CVal.isTrue]
  | bool b => rw [(hV.bool b u).mp h]; cases b <;> simp [CVal.isTrue]
  | nil => rw [(hV.nil u).mp h]; simp [CVal.isTrue]
  | str n => rw [(hV.str n u).mp h]; simp [CVal.isTrue]
  | sym n => rw [(hV.sym n u).mp h]; simp [CVal.isTrue]
  | cons a d => obtain ⟨a', d', rfl, h1, h2⟩ := (hV.cons a d u).mp h; simp [CVal.isTrue]
  | clo _ _ _ => have := hV.fn _ _ h rfl; cases u <;> simp [CVal.isTrue, CVal.isFn] at *
  | prim _ => have := hV.fn _ _ h rfl; cases u <;> simp [CVal.isTrue, CVal.isFn] at *
  | pap _ _ => have := hV.fn _ _ h rfl; cases u <;> simp [CVal.isTrue, CVal.isFn] at *
  | native _ _ => have := hV.fn _ _ h rfl; cases u <;> simp [CVal.isTrue, CVal.isFn] at *

variable {E : Ext W} {O : Outside W}

theorem outside_like (hV : Likeness V) (hA : Agree E O) {p vs us} {w : World W} {w' : CWorld A W} (h : AllRel V vs us)
    (hw : WorldRel V w w') : OutRel V (outside E p vs w) (coutside O p us w') := by
  unfold outside coutside
  rcases hA.prim V hV p vs us w.rest h with ⟨v, u, r, h1, h2, h3⟩ | ⟨h1, h2⟩
  · rw [h1, ← hw.rest, h2]
    exact .some h3 ⟨rfl, hw.globals⟩
  · rw [h1, ← hw.rest, h2]
    exact .none

theorem set_like {w : World W} {w' : CWorld A W} {x v u} (h : V v u) (hw : WorldRel V w w') :
    WorldRel V (w.set x v) (w'.set x u) := by
  refine ⟨hw.rest, fun y => ?_⟩
  simp only [CWorld.set, World.set]
  split
  · exact .some h
  · exact hw.globals y

/-- what a value related to some value can be -/
theorem like_cases (hV : Likeness V) {v : Val} {u : CVal A} (h : V v u) :
    (∃ n, v = .int n ∧ u = .int n) ∨ (∃ b, v = .bool b ∧ u = .bool b) ∨ (v = .nil ∧ u = .nil) ∨
    (∃ s, v = .str s ∧ u = .str s) ∨ (∃ x, v = .sym x ∧ u = .sym x) ∨
    (∃ a d a' d', v = .cons a d ∧ u = .cons a' d' ∧ V a a' ∧ V d d') ∨ (valFn v = true ∧ u.isFn = true) := by
  cases v with
  | int n => exact .inl ⟨n, rfl, (hV.int n u).mp h⟩
  | bool b => exact .inr (.inl ⟨b, rfl, (hV.bool b u).mp h⟩)
  | nil => exact .inr (.inr (.inl ⟨rfl, (hV.nil u).mp h⟩))
  | str n => exact .inr (.inr (.inr (.inl ⟨n, rfl, (hV.str n u).mp h⟩)))
  | sym n => exact .inr (.inr (.inr (.inr (.inl ⟨n, rfl, (hV.sym n u).mp h⟩))))
  | cons a d =>
    obtain ⟨a', d', h1, h2, h3⟩ := (hV.cons a d u).mp h
    exact .inr (.inr (.inr (.inr (.inr (.inl ⟨a, d, a', d', rfl, h1, h2, h3⟩)))))
  | _ => exact .inr (.inr (.inr (.inr (.inr (.inr ⟨rfl, hV.fn _ _ h rfl⟩)))))

theorem primApply_other (E : Ext W) {p : String} {args : List Val} {w : World W}
    (h : p ∉ ["set", "car", "cdr", "cons", "cons?", "=", "not", "symbol?", "integer?", "string?"]) :
    primApply E p args w = outside E p args w := by
  simp only [List.mem_cons, List.not_mem_nil, or_false, not_or] at h
  unfold primApply
  split <;> simp_all

theorem primApply_two (E : Ext W) {p : String} {a b : Val} {r : List Val} {w : World W}
    (h : p ∈ ["cons?", "symbol?", "integer?", "string?"]) : 
    primApply E p (a :: b :: r) w = outside E p (a :: b :: r) w := by
  simp only [List.mem_cons, List.not_mem_nil, or_false] at h
  unfold primApply
  rcases h with rfl | rfl | rfl | rfl <;> split <;> simp_all

/-- primitives on one function -/
inductive Fn1 where
  | error
  | no
  | open
  deriving DecidableEq

def fn1 : String → Fn1
  | "set" => .error
  | "car" => .error
  | "cdr" => .error
  | "not" => .error
  | "cons?" => .no
  | "symbol?" => .no
  | _ => .open

theorem primApply_fn {p : String} {v : Val} {w : World W} (hv : valFn v = true)
    (hp : ¬ p ∉ ["set", "car", "cdr", "cons", "cons?", "=", "not", "symbol?", "integer?", "string?"]) :
    primApply E p [v] w = match fn1 p with
      | .error => none
      | .no => some (.bool false, w)
      | .open => outside E p [v] w := by
  rcases special_cases hp with rfl | rfl | rfl | rfl | rfl | rfl | rfl | rfl | rfl | rfl <;>
    cases v <;> first | (simp [valFn] at hv; done) | rfl

theorem cprim_fn {p : String} {v : CVal A} {w : CWorld A W} (hv : v.isFn = true)
    (hp : ¬ p ∉ ["set", "car", "cdr", "cons", "cons?", "=", "not", "symbol?", "integer?", "string?"]) :
    cprim O p [v] w = match fn1 p with
      | .error => none
      | .no => some (.bool false, w)
      | .open => coutside O p [v] w := by
  rcases special_cases hp with rfl | rfl | rfl | rfl | rfl | rfl | rfl | rfl | rfl | rfl <;>
    cases v <;> first | (simp [CVal.isFn] at hv; done) | rfl

theorem prim_like1 (hV : Likeness V) (hA : Agree E O) {p v u} {w : World W} {w' : CWorld A W} (h : V v u) (hw : WorldRel V w w')
    (hp : ¬ p ∉ ["set", "car", "cdr", "cons", "cons?", "=", "not", "symbol?", "integer?", "string?"]) :
    OutRel V (primApply E p [v] w) (cprim O p [u] w') := by
  have hb : ∀ b : Bool, OutRel V (some (Val.bool b, w)) (some (CVal.bool b, w')) :=
    fun b => .some ((hV.bool b _).mpr rfl) hw
  have ho : ∀ p, OutRel V (outside E p [v] w) (coutside O p [u] w') :=
    fun p => outside_like hV hA (.cons h .nil) hw
  rcases like_cases hV h with hc | hc | hc | hc | hc | hc | ⟨h1, h2⟩
  case' inr.inr.inr.inr.inr.inr =>
    rw [primApply_fn h1 hp, cprim_fn h2 hp]
    cases fn1 p
    · exact .none
    · exact hb _
    · exact ho _
  all_goals
    first
    | obtain ⟨rfl, rfl⟩ := hc
    | obtain ⟨n, rfl, rfl⟩ := hc
    | obtain ⟨a, d, a', d', rfl, rfl, h1, h2⟩ := hc
    rcases special_cases hp with rfl | rfl | rfl | rfl | rfl | rfl | rfl | rfl | rfl | rfl <;>
    (simp only [primApply, cprim]; first | exact .none | exact hb _ | exact ho _ | exact .some (by assumption) hw)

theorem prim_like (hV : Likeness V) (hA : Agree E O) {p vs us} {w : World W} {w' : CWorld A W} (h : AllRel V vs us)
    (hw : WorldRel V w w') : OutRel V (primApply E p vs w) (cprim O p us w') := by
  have ho : ∀ p, OutRel V (outside E p vs w) (coutside O p us w') := fun p => outside_like hV hA h hw
  by_cases hp : p ∉ ["set", "car", "cdr", "cons", "cons?", "=", "not", "symbol?", "integer?", "string?"]
  · rw [primApply_other E hp, cprim_other O hp]
    exact ho p
  · rcases h with _ | ⟨h1, h⟩
    · rcases special_cases hp with rfl | rfl | rfl | rfl | rfl | rfl | rfl | rfl | rfl | rfl <;>
        simp only [primApply, cprim] <;> first | exact .none | exact ho _
    · rcases h with _ | ⟨h2, h⟩
      · exact prim_like1 hV hA h1 hw hp
      · by_cases hs : p ∈ ["cons?", "symbol?", "integer?", "string?"]
        · rw [primApply_two E hs, cprim_two O hs]
          exact ho p
        · rcases h with _ | ⟨h3, h⟩
          · by_cases heq : p = "="
            · subst heq
              simp only [primApply, cprim, like_datum hV _ _ h1, like_datum hV _ _ h2]
              rename_i _ u _ u2
              cases u.datum <;> cases u2.datum
              · exact ho _
              · exact .some ((hV.bool _ _).mpr rfl) hw
              · exact .some ((hV.bool _ _).mpr rfl) hw
              · exact .some ((hV.bool _ _).mpr rfl) hw
            · by_cases hset : p = "set"
              · subst hset
                rcases like_cases hV h1 with ⟨n, rfl, rfl⟩ | ⟨n, rfl, rfl⟩ | ⟨rfl, rfl⟩ | ⟨n, rfl, rfl⟩ | ⟨n, rfl, rfl⟩ |
                  ⟨a, d, a', d', rfl, rfl, h1, h2⟩ | ⟨h3, h4⟩
                all_goals first
                  | (simp only [primApply, cprim]; exact .none)
                  | (simp only [primApply, cprim]; exact .some h2 (set_like h2 hw))
                  | skip
                rename_i v u _ _
                have e1 : ∀ (v b : Val), valFn v = true → primApply E "set" [v, b] w = none := by
                  intro v b hv; cases v <;> first | (simp [valFn] at hv; done) | rfl
                have e2 : ∀ (v b : CVal A), v.isFn = true → cprim O "set" [v, b] w' = none := by
                  intro v b hv; cases v <;> first | (simp [CVal.isFn] at hv; done) | rfl
                rw [e1 _ _ h3, e2 _ _ h4]
                exact .none
              · rcases special_cases hp with rfl | rfl | rfl | rfl | rfl | rfl | rfl | rfl | rfl | rfl <;>
                  first
                  | exact absurd rfl hset
                  | exact absurd rfl heq
                  | exact absurd (by decide) hs
                  | (simp only [primApply, cprim]; exact .none)
                  | (simp only [primApply, cprim]; exact .some ((hV.cons _ _ _).mpr ⟨_, _, rfl, h1, h2⟩) hw)
          · rcases special_cases hp with rfl | rfl | rfl | rfl | rfl | rfl | rfl | rfl | rfl | rfl <;>
              first
              | exact absurd (by decide) hs
              | (simp only [primApply, cprim]; exact .none)
              | (simp only [primApply, cprim]; exact ho _)

end

end Cora.Compile
