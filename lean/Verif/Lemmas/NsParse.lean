import Verif.Props.MacroBase
/-
How the namespace pass treats the core forms.
-/
open Spec.Lang
namespace Cora.Macro
variable {mt : Macros} {ex : Exports} {env : List Sym} {ns : String} {imp : List String}

theorem nsParse_app {f args : Datum} (h : ∀ s ∈ ["quote", "lambda", "if", "do", "let", "def", "ns"], f ≠ kw s) :
    nsParse ex env ns imp (.cons f args) =
      (do some (.cons (← nsParse ex env ns imp f) (← nsParses ex env ns imp args))) := by
  simp [kw] at h
  rw [nsParse]
  all_goals (intros; simp_all)

theorem nsParse_if {args : Datum} :
    nsParse ex env ns imp (.cons (kw "if") args) = (do some (.cons (kw "if") (← nsParses ex env ns imp args))) := by
  rw [nsParse]

theorem nsParse_do {args : Datum}
    (h : ∀ pkg y, args ≠ .cons (.list [kw "import", .str pkg]) (.cons y .nil)) :
    nsParse ex env ns imp (.cons (kw "do") args) = (do some (.cons (kw "do") (← nsParses ex env ns imp args))) := by
  rw [nsParse]
  intro pkg y he
  exact h pkg y he

theorem symbols_list : ∀ ps : List Sym, symbols (.list (ps.map .sym)) = some ps
  | [] => rfl
  | x :: r => by simp [Datum.list, symbols, symbols_list r]

mutual
/-- no `(do (import "…") …)` -/
def noImport : Core → Prop
  | .lit _ => True
  | .quote _ => True
  | .var _ => True
  | .lam _ b => noImport b
  | .ite a b c => noImport a ∧ noImport b ∧ noImport c
  | .seq a b => (∀ p, a ≠ .app (.var (.named "import")) [.lit (.str p)]) ∧ noImport a ∧ noImport b
  | .bind _ e b => noImport e ∧ noImport b
  | .app f args => noImport f ∧ noImports args
def noImports : List Core → Prop
  | [] => True
  | c :: r => noImport c ∧ noImports r
end

theorem form_str {c : Core} {p : String} (h : c.form = .str p) : c = .lit (.str p) := by
  cases c with
  | lit c => cases c <;> simp [Core.form, Const.datum] at h ⊢; exact h
  | _ => simp [Core.form, Datum.list] at h

theorem form_import {a : Core} {p : String} (h : a.form = .list [kw "import", .str p]) :
    a = .app (.var (.named "import")) [.lit (.str p)] := by
  cases a with
  | lit c => cases c <;> simp [Core.form, Const.datum, Datum.list] at h
  | app f args =>
    simp only [Core.form, Datum.list] at h
    injection h with h1 h2
    rw [form_sym h1]
    cases args with
    | nil => simp [Core.forms, Datum.list] at h2
    | cons x r =>
      cases r with
      | nil =>
        simp only [Core.forms, Datum.list] at h2
        injection h2 with h2 _
        rw [form_str h2]
      | cons => simp [Core.forms, Datum.list] at h2
  | _ => simp [Core.form, Datum.list] at h

theorem special_kw {s : String} (hs : s ∈ ["quote", "lambda", "if", "do", "let", "def", "ns"]) :
    special mt (.named s) := .inl (List.mem_map.2 ⟨s, hs, rfl⟩)

theorem lookupVar_top (x : Sym) : lookupVar ex x "" [] = x := by simp [lookupVar, varWithNs]

mutual
/-- outside of packages the namespace pass changes nothing -/
theorem nsParse_id : ∀ (c : Core) (env : List Sym), okCore (special mt) c → noImport c →
    nsParse ex env "" [] c.form = some c.form
  | .lit c, env, _, _ => by cases c <;> simp [Core.form, Const.datum, nsParse]
  | .quote d, env, _, _ => by simp [Core.form, Datum.list, nsParse]
  | .var x, env, _, _ => by simp [Core.form, nsParse, lookupVar_top]
  | .lam ps b, env, h, hi => by
    simp only [Core.form, Datum.list]
    rw [nsParse, symbols_list]
    simp [nsParse_id b _ h hi, Datum.list]
  | .ite a b c, env, h, hi => by
    simp only [Core.form, Datum.list]
    rw [nsParse_if]
    simp [nsParses, nsParse_id a _ h.1 hi.1, nsParse_id b _ h.2.1 hi.2.1, nsParse_id c _ h.2.2 hi.2.2]
  | .seq a b, env, h, hi => by
    simp only [Core.form, Datum.list]
    rw [nsParse_do]
    · simp [nsParses, nsParse_id a _ h.1 hi.2.1, nsParse_id b _ h.2 hi.2.2]
    · intro p y he
      injection he with he _
      exact hi.1 p (form_import he)
  | .bind x e b, env, h, hi => by
    simp only [Core.form, Datum.list]
    rw [nsParse]
    simp [nsParse_id e _ h.1 hi.1, nsParse_id b _ h.2 hi.2, Datum.list]
  | .app f args, env, h, hi => by
    simp only [Core.form]
    rw [nsParse_app, nsParse_id f _ h.2.1 hi.1, nsParses_id args _ h.2.2 hi.2]
    · rfl
    · intro s hs he
      exact h.1 _ (form_sym he) (special_kw hs)
theorem nsParses_id : ∀ (cs : List Core) (env : List Sym), okCores (special mt) cs → noImports cs →
    nsParses ex env "" [] (.list (Core.forms cs)) = some (.list (Core.forms cs))
  | [], env, _, _ => by simp [Core.forms, Datum.list, nsParses]
  | c :: r, env, h, hi => by
    simp [Core.forms, Datum.list, nsParses, nsParse_id c _ h.1 hi.1, nsParses_id r _ h.2 hi.2]
end

end Cora.Macro
