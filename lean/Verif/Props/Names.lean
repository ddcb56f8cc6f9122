import Verif.Props.Quasi
import Verif.Lemmas.NsParse
import Verif.Spec.Names
/-
C45: names in packages.
-/
open Spec.Lang
namespace Cora.Macro
variable {mt : Macros} {K : Nat} {ex : Exports}

theorem symbolText_eq (x : Sym) : symbolText x = x.text := by cases x <;> rfl

theorem symbolCooked_iff (x : Sym) : symbolCooked x = true ↔ x.qualified := by
  simp [symbolCooked, Sym.qualified, symbolText_eq]

theorem varWithNs_eq (x : Sym) (ns : String) : varWithNs x ns = own ns x := by
  unfold varWithNs own ofPackage
  by_cases h : ns = ""
  · simp [h]
  · by_cases hc : x.qualified
    · simp [h, hc, (symbolCooked_iff x).2 hc]
    · have : ¬ symbolCooked x = true := fun e => hc ((symbolCooked_iff x).1 e)
      simp [h, hc, this, symbolText_eq]

theorem lookupVar_eq (x : Sym) (ns : String) : ∀ imp : List String,
    lookupVar ex x ns imp = resolveGlobal ex ns imp x
  | [] => by simp [lookupVar, varWithNs_eq, resolveGlobal]
  | i :: r => by
    by_cases h : x ∈ ex i
    · simp [lookupVar, h, ofPackage, symbolText_eq, resolveGlobal]
    · simp [lookupVar, h, lookupVar_eq x ns r, resolveGlobal]

theorem isBuiltin_eq (x : Sym) : isBuiltin x = x.primitive := by cases x <;> rfl

theorem nsParse_sym (ns : String) (imp : List String) (env : List Sym) (x : Sym) :
    nsParse ex env ns imp (.sym x) = some (.sym (resolve ex ns imp env x)) := by
  simp [nsParse, resolve, isBuiltin_eq, lookupVar_eq]

theorem imports_form {a : Core} {p : String} (h : a.form = .list [kw "import", .str p]) : a.imports = [p] := by
  rw [form_import h]; rfl

theorem imports_nil {a : Core} (h : ∀ p, a.form ≠ .list [kw "import", .str p]) : a.imports = [] := by
  unfold Core.imports
  split
  · rename_i p
    exact absurd rfl (h p)
  · rfl

/-- `(do (import "p") y)` -/
theorem nsParse_do_import {env : List Sym} {ns p : String} {imp : List String} {y : Datum} :
    nsParse ex env ns imp (.list [kw "do", .list [kw "import", .str p], y]) =
      (nsParse ex env ns (p :: imp) y).map fun y' =>
        .list [kw "do", .list [.sym (resolve ex ns imp env (.named "import")), .str p], y'] := by
  simp only [Datum.list]
  rw [nsParse]
  have : (if Sym.named "import" ∈ env then Sym.named "import" else lookupVar ex (.named "import") ns imp) =
      resolve ex ns imp env (.named "import") := by
    simp [resolve, Sym.primitive, primArity, lookupVar_eq]
  rw [this]
  cases nsParse ex env ns (p :: imp) y <;> simp [Datum.list]

mutual
/-- the namespace pass replaces every name by what it refers to -/
theorem C45_resolve (ns : String) : ∀ (c : Core) (imp : List String) (env : List Sym), okCore (special mt) c →
    nsParse ex env ns imp c.form = some (c.resolve ex ns imp env).form
  | .lit c, imp, env, _ => by cases c <;> simp [Core.form, Core.resolve, Const.datum, nsParse]
  | .quote d, imp, env, _ => by simp [Core.form, Core.resolve, Datum.list, nsParse]
  | .var x, imp, env, _ => by simp [Core.form, Core.resolve, nsParse_sym]
  | .lam ps b, imp, env, h => by
    simp only [Core.form, Core.resolve, Datum.list]
    rw [nsParse, symbols_list]
    simp [C45_resolve ns b imp (ps ++ env) h, Datum.list]
  | .ite a b c, imp, env, h => by
    simp only [Core.form, Core.resolve, Datum.list]
    rw [nsParse_if]
    simp [nsParses, C45_resolve ns a _ _ h.1, C45_resolve ns b _ _ h.2.1, C45_resolve ns c _ _ h.2.2]
  | .seq a b, imp, env, h => by
    by_cases hi : ∃ p, a.form = .list [kw "import", .str p]
    · obtain ⟨p, hp⟩ := hi
      have := nsParse_do_import (ex := ex) (env := env) (ns := ns) (p := p) (imp := imp) (y := b.form)
      rw [C45_resolve ns b (p :: imp) env h.2] at this
      have ha := form_import hp
      subst ha
      simpa [Core.form, Core.forms, Core.resolve, Core.resolves, Core.imports, Const.datum, Datum.list] using this
    · simp only [Core.form, Core.resolve, Datum.list]
      rw [nsParse_do, imports_nil fun p e => hi ⟨p, e⟩]
      · simp [nsParses, C45_resolve ns a _ _ h.1, C45_resolve ns b _ _ h.2]
      · intro p y he
        injection he with he _
        exact hi ⟨p, he⟩
  | .bind x e b, imp, env, h => by
    simp only [Core.form, Core.resolve, Datum.list]
    rw [nsParse]
    simp [C45_resolve ns e _ _ h.1, C45_resolve ns b _ _ h.2, Datum.list]
  | .app f args, imp, env, h => by
    simp only [Core.form, Core.resolve]
    rw [nsParse_app, C45_resolve ns f _ _ h.2.1, resolves_eq ns args _ _ h.2.2]
    · rfl
    · intro s hs he
      exact h.1 _ (form_sym he) (special_kw hs)
theorem resolves_eq (ns : String) : ∀ (cs : List Core) (imp : List String) (env : List Sym), okCores (special mt) cs →
    nsParses ex env ns imp (.list (Core.forms cs)) = some (.list (Core.forms (Core.resolves ex ns imp env cs)))
  | [], imp, env, _ => by simp [Core.forms, Core.resolves, Datum.list, nsParses]
  | c :: r, imp, env, h => by
    simp [Core.forms, Core.resolves, Datum.list, nsParses, C45_resolve ns c _ _ h.1, resolves_eq ns r _ _ h.2]
end

/-- different packages, or different names, are different global variables: names must not contain `#` themselves -/
theorem C45_no_clash {p q : String} {x y : Sym} (hx : ¬ x.qualified) (hy : ¬ y.qualified)
    (h : ofPackage p x = ofPackage q y) : p = q ∧ x = y := by
  have key : ∀ (a b c d : List Char), '#' ∉ c → '#' ∉ d → a ++ '#' :: c = b ++ '#' :: d → a = b ∧ c = d := by
    intro a
    induction a with
    | nil =>
      intro b c d hc hd he
      cases b with
      | nil => simpa using he
      | cons z b =>
        simp only [List.nil_append, List.cons_append, List.cons.injEq] at he
        exact absurd (he.2 ▸ by simp) hc
    | cons z a ih =>
      intro b c d hc hd he
      cases b with
      | nil =>
        simp only [List.nil_append, List.cons_append, List.cons.injEq] at he
        exact absurd (he.2 ▸ by simp) hd
      | cons z' b =>
        simp only [List.cons_append, List.cons.injEq] at he
        obtain ⟨h1, h2⟩ := ih b c d hc hd he.2
        exact ⟨by rw [he.1, h1], h2⟩
  cases x with
  | gen n => exact absurd (by simp [Sym.qualified, Sym.text]) hx
  | named s =>
    cases y with
    | gen n => exact absurd (by simp [Sym.qualified, Sym.text]) hy
    | named t =>
      simp only [ofPackage, Sym.named.injEq, Sym.text] at h
      have h := congrArg String.toList h
      simp only [String.toList_append] at h
      obtain ⟨h1, h2⟩ := key p.toList q.toList s.toList t.toList hx hy (by simpa using h)
      exact ⟨String.toList_inj.1 h1, by rw [String.toList_inj.1 h2]⟩

/-- resolving never turns a global name into a local one, if local variables have no `#` in their names -/
theorem C45_no_capture {ns : String} {imp : List String} {env : List Sym} (henv : ∀ y ∈ env, ¬ y.qualified) {x : Sym} :
    resolve ex ns imp env x ∈ env ↔ x ∈ env := by
  have hq : ∀ p z, ofPackage p z ∉ env := fun p z hm => henv _ hm (by simp [ofPackage, Sym.qualified, Sym.text])
  unfold resolve
  by_cases hx : x ∈ env
  · simp [hx]
  · simp only [hx, if_false, iff_false]
    split
    · exact hx
    · unfold resolveGlobal
      split
      · exact hq _ _
      · unfold own
        split
        · exact hx
        · exact hq _ _

/-- with a local variable named like a qualified one it does: in package `p`, `(lambda (p#x) x)` returns its argument -/
theorem C45_capture : nsParse (fun _ => []) [] "p" [] (Core.lam [.named "p#x"] (.var (.named "x"))).form =
    some (Core.lam [.named "p#x"] (.var (.named "p#x"))).form := by
  have := C45_resolve (mt := initMacros) (ex := fun _ => []) "p" (Core.lam [.named "p#x"] (.var (.named "x"))) [] [] trivial
  rw [this]
  simp [Core.resolve, resolve, resolveGlobal, Sym.primitive, primArity, own, Sym.qualified, Sym.text, ofPackage]

/-! ### packages -/

/-- a top level form is expanded -/
def Top.ok (mt : Macros) : Top → Prop
  | .define _ e => okCore (special mt) e
  | .expr e => okCore (special mt) e

/-- the expander turns `d` into the top level form `t` -/
structure TopTurns (mt : Macros) (d : Datum) (k : Nat) (t : Top) (k' : Nat) : Prop where
  run : Runs mt d k t.form k'
  le : k ≤ k'
  ok : Top.ok mt t

/-- whenever at least `K` symbols were generated before, `d` turns into a top level form -/
def TopExpandable (mt : Macros) (K : Nat) (d : Datum) : Prop := ∀ k, K ≤ k → ∃ t k', TopTurns mt d k t k'

/-- each of the forms with its expansion -/
inductive TopExpansions (mt : Macros) (K : Nat) : List Datum → List Top → Prop where
  | nil : TopExpansions mt K [] []
  | cons {d t ds ts} : (∃ k k', K ≤ k ∧ TopTurns mt d k t k') → TopExpansions mt K ds ts →
      TopExpansions mt K (d :: ds) (t :: ts)

theorem top_expr {d : Datum} (h : Expandable mt K d) : TopExpandable mt K d := fun k hk =>
  let ⟨c, k', t, _⟩ := h k hk
  ⟨.expr c, k', t.run, t.le, t.ok⟩

theorem turns_define (hs : Std mt) {x : Sym} {e : Datum} {c : Core} {k k' : Nat} (t : Turns mt e k c k') :
    TopTurns mt (.list [kw "def", .sym x, e]) k (.define x c) k' where
  run := runs_list (hs.plain (by decide) (by decide)) (by intro y hy; cases hy; exact hs.core _ (by simp))
    (.cons runs_sym (.cons runs_sym (.cons t.run .nil)))
  le := t.le
  ok := t.ok

theorem top_define (hs : Std mt) {x : Sym} {e : Datum} (h : Expandable mt K e) :
    TopExpandable mt K (.list [kw "def", .sym x, e]) := fun k hk =>
  let ⟨c, k', t, _⟩ := h k hk
  ⟨.define x c, k', turns_define hs t⟩

theorem nsParse_top {ns : String} {imp : List String} : ∀ t : Top, Top.ok mt t →
    nsParse ex [] ns imp t.form = some (t.resolve ex ns imp).form
  | .define x e, h => by
    simp only [Top.form, Datum.list]
    rw [nsParse]
    simp [C45_resolve ns e imp [] h, Top.resolve, Core.form, Core.forms, Datum.list, varWithNs_eq]
  | .expr e, h => C45_resolve ns e imp [] h

/-- forms nested with `do`, as `begin` does -/
def doTops : Top → List Top → Datum
  | t, [] => t.form
  | t, t' :: ts => .list [kw "do", t.form, doTops t' ts]

theorem nsParse_tops {ns : String} : ∀ (ts : List Top) (t : Top) (imp : List String), Top.ok mt t → (∀ x ∈ ts, Top.ok mt x) →
    nsParse ex [] ns imp (doTops t ts) = some (resolveTops ex ns imp t ts).form
  | [], t, imp, h, _ => nsParse_top t h
  | t' :: ts, t, imp, h, hts => by
    have ih := fun imp => nsParse_tops (ns := ns) ts t' imp (hts t' (by simp)) (fun x hx => hts x (by simp [hx]))
    simp only [doTops, resolveTops]
    by_cases hi : ∃ p, t.form = .list [kw "import", .str p]
    · obtain ⟨p, hp⟩ := hi
      cases t with
      | define x e => simp [Top.form, Datum.list, kw] at hp
      | expr a =>
        have := nsParse_do_import (ex := ex) (env := []) (ns := ns) (p := p) (imp := imp) (y := doTops t' ts)
        rw [ih (p :: imp)] at this
        have ha := form_import hp
        subst ha
        simpa [Top.form, Top.resolve, Top.imports, Core.form, Core.forms, Core.resolve, Core.resolves, Core.imports,
          Const.datum, Datum.list] using this
    · have hn : t.imports = [] := by
        cases t with
        | define x e => rfl
        | expr a => exact imports_nil fun p e => hi ⟨p, e⟩
      simp only [Datum.list, Core.form]
      rw [nsParse_do, hn]
      · simp [nsParses, nsParse_top t h, ih imp]
      · intro p y he
        injection he with he _
        exact hi ⟨p, he⟩

theorem doForm_tops (hs : Std mt) : ∀ (ds : List Datum) (d : Datum) (_ : TopExpandable mt K d)
    (_ : ∀ x ∈ ds, TopExpandable mt K x) (k : Nat), K ≤ k →
    ∃ t ts k', Runs mt (doForm d ds) k (doTops t ts) k' ∧ k ≤ k' ∧ TopExpansions mt K (d :: ds) (t :: ts) ∧
      Top.ok mt t ∧ ∀ x ∈ ts, Top.ok mt x
  | [], d, hd, _, k, hk => by
    obtain ⟨t, k', h⟩ := hd k hk
    exact ⟨t, [], k', h.run, h.le, .cons ⟨k, k', hk, h⟩ .nil, h.ok, by simp⟩
  | d' :: ds, d, hd, hds, k, hk => by
    obtain ⟨t, k1, h⟩ := hd k hk
    have hle := h.le
    obtain ⟨t', ts, k2, r, le, x, ok, oks⟩ := doForm_tops hs ds d' (hds d' (by simp)) (fun y hy => hds y (by simp [hy])) k1
      (by omega)
    refine ⟨t, t' :: ts, k2, ?_, by omega, .cons ⟨k, k1, hk, h⟩ x, h.ok, ?_⟩
    · exact runs_list (hs.plain (by decide) (by decide)) (by intro y hy; cases hy; exact hs.core _ (by simp))
        (.cons runs_sym (.cons h.run (.cons r .nil)))
    · intro y hy
      rcases List.mem_cons.1 hy with rfl | hy
      · exact ok
      · exact oks y hy

/-- `(import "p")` -/
def importTop (p : String) : Top := .expr (.app (.var (.named "import")) [.lit (.str p)])

/-- the definition of the list of exported names -/
def exportTop (es : List Sym) : Top :=
  .define (.named "*ns-export*") (es.foldr (fun e r => consC (.quote (.sym e)) r) (.lit .nil))

/-- how a package is written -/
def packageForm (path : String) (imps : List String) (es : List Sym) (body : List Datum) : Datum :=
  .list (kw "package" :: .str path :: (imps.map fun i => .list [kw "import", .str i]) ++
    .cons (kw "export") (.list (es.map .sym)) :: body)

/-- a package with any header -/
def packageWith (path : String) (hs : List Header) (body : List Datum) : Datum :=
  .list (kw "package" :: .str path :: hs.map Header.form ++ body)

/-- the body does not start with a form of the header -/
def NoHeader (body : List Datum) : Prop :=
  ∀ h t, Datum.list body = .cons h t → ∀ r, h ≠ .cons (kw "import") r ∧ h ≠ .cons (kw "export") r

theorem parse_header : ∀ (hs : List Header) (body : List Datum) (_ : NoHeader body) (acc : List Datum) (es : List Sym),
    parsePackage (.list (hs.map Header.form ++ body)) acc (.list (es.map .sym)) =
      (acc ++ (headerImports hs).map .str, .list ((headerExports hs es).map .sym), .list body)
  | [], body, hb, acc, es => by
    simp only [List.map_nil, List.nil_append, headerImports, List.append_nil, headerExports]
    generalize he : Datum.list body = b
    unfold NoHeader at hb
    rw [he] at hb
    unfold parsePackage
    split
    · rename_i lib rest
      exact absurd rfl (hb _ _ rfl _).1
    · exact absurd rfl (hb _ _ rfl _).2
    · rfl
  | .import_ p :: hs, body, hb, acc, es => by
    have := parse_header hs body hb (acc ++ [.str p]) es
    simp only [List.map_cons, List.cons_append, Datum.list, Header.form] at this ⊢
    rw [parsePackage, this]
    simp [headerImports, headerExports]
  | .export_ l :: hs, body, hb, acc, es => by
    have := parse_header hs body hb acc l
    simp only [List.map_cons, List.cons_append, Datum.list, Header.form] at this ⊢
    rw [parsePackage, this]
    simp [headerImports, headerExports]

theorem append_list : ∀ a b : List Datum, append (.list a) (.list b) = some (.list (a ++ b))
  | [], b => by simp [Datum.list, append]
  | x :: a, b => by simp [Datum.list, append, append_list a b]

theorem rewriteBackquotes_syms : ∀ es : List Sym, rewriteBackquotes (.list (es.map .sym)) =
    .list (es.map fun e => .list [kw "quote", .sym e])
  | [] => by simp [Datum.list, rewriteBackquotes]
  | e :: es => by simp [Datum.list, rewriteBackquotes, rewriteBackquote, rewriteBackquotes_syms es]

/-- the quoted list of exported names -/
theorem export_turns (hs : Std mt) (es : List Sym) (hes : es.head? ≠ some (.named "unquote")) (k : Nat) :
    Turns mt (.list [kw "backquote", .list (es.map .sym)]) k (es.foldr (fun e r => consC (.quote (.sym e)) r) (.lit .nil)) k := by
  have hc : ∀ es : List Sym, Turns mt (consForm (es.map fun e => .list [kw "quote", .sym e]) .nil) k
      (es.foldr (fun e r => consC (.quote (.sym e)) r) (.lit .nil)) k := by
    intro es
    induction es with
    | nil => exact turns_lit .nil k
    | cons e es ih => exact turns_consC hs (turns_quote hs _ k) ih
  cases es with
  | nil =>
    exact turns_std hs (by decide) (by decide) rfl (g := fun e => (cadr e).map rewriteBackquote) (e1 := .nil)
      (by simp [cadr, cdr, car, Datum.list, rewriteBackquote]) (by simp) (turns_lit .nil k)
  | cons e es =>
    have he : e ≠ .named "unquote" := by simpa using hes
    refine turns_std hs (by decide) (by decide) rfl (g := fun e => (cadr e).map rewriteBackquote)
      (e1 := .cons (kw "list") (.list ((e :: es).map fun e => .list [kw "quote", .sym e]))) ?_ (by simp [Datum.list, kw]) ?_
    · simp only [cadr, cdr, car, Datum.list, Option.bind_some, Option.map_some, List.map_cons]
      rw [rewriteBackquote]
      · rw [rewriteBackquotes_syms]; simp [rewriteBackquote, Datum.list]
      · intro x h _; exact he (by simpa using h)
    · refine turns_std hs (by decide) (by decide) rfl (g := fun e => (cdr e).map rcons)
        (e1 := consForm ((e :: es).map fun e => .list [kw "quote", .sym e]) .nil)
        (by simp only [cdr, Option.map_some, rcons_list]) (by simp [consForm, Datum.list, kw]) (hc (e :: es))

theorem import_turns (hs : Std mt) (hi : mt.fn (.named "import") = none) (p : String) (k : Nat) :
    TopTurns mt (.list [kw "import", .str p]) k (importTop p) k := by
  have := turns_app_sym (mt := mt) hs (x := .named "import") (es := [.str p]) (k := k) (k' := k) (cs := [.lit (.str p)])
    (by rintro (h | h | h)
        · simp at h
        · simp [hi] at h
        · rw [hs.protect] at h; cases h) (.cons (turns_lit (.str p) k) .nil)
  exact ⟨this.run, this.le, this.ok⟩

/-- a package is its body with the names resolved: in the body every import comes before the ones above it, then comes
`cora/init`. It starts by performing the imports and setting the list of exported names, which are those of the last `export`. -/
theorem C45_package_header (hs : Std mt) (hi : mt.fn (.named "import") = none) (path : String) (header : List Header)
    (hes : (headerExports header []).head? ≠ some (.named "unquote")) (body : List Datum) (hb : NoHeader body)
    (hbody : ∀ d ∈ body, TopExpandable mt K d) (k : Nat) (hk : K ≤ k) :
    ∃ tops t ts k', TopExpansions mt K body tops ∧
      t :: ts = (headerImports header).map importTop ++ exportTop (headerExports header []) :: tops ∧
      ∃ N, ∀ n, N ≤ n → macroexpand mt n (packageWith path header body) k =
        some ((resolveTops mt.ex path ("cora/init" :: headerImports header) t ts).form, k') := by
  have hp := parse_header header body hb [] []
  simp only [List.map_nil, Datum.list, List.nil_append] at hp
  generalize himps : headerImports header = imps at hp ⊢
  generalize hesd : headerExports header [] = es at hes hp ⊢
  -- the forms of the body
  let export_ : Datum := .list [kw "def", kw "*ns-export*", .list [kw "backquote", .list (es.map .sym)]]
  let forms : List Datum := (imps.map fun i => .list [kw "import", .str i]) ++ export_ :: body
  have hne : forms ≠ [] := by simp [forms]
  have hexp : ∀ d ∈ body, TopExpandable mt K d := hbody
  have key : ∀ (is : List String), ∃ tops t ts k', TopExpansions mt K body tops ∧
      t :: ts = is.map importTop ++ exportTop es :: tops ∧ Top.ok mt t ∧ (∀ x ∈ ts, Top.ok mt x) ∧
      ∃ d ds, d :: ds = (is.map fun i => Datum.list [kw "import", .str i]) ++ export_ :: body ∧
        Runs mt (doForm d ds) k (doTops t ts) k' := by
    intro is
    induction is with
    | nil =>
      have hx : TopTurns mt export_ k (exportTop es) k := turns_define hs (export_turns hs es hes k)
      cases body with
      | nil => exact ⟨[], exportTop es, [], k, .nil, rfl, hx.ok, by simp, export_, [], rfl, hx.run⟩
      | cons d ds =>
        obtain ⟨t, ts, k', r, le, x, ok, oks⟩ := doForm_tops hs ds d (hexp d (by simp)) (fun y hy => hexp y (by simp [hy])) k hk
        refine ⟨t :: ts, exportTop es, t :: ts, k', x, rfl, hx.ok, ?_, export_, d :: ds, rfl, ?_⟩
        · intro y hy
          rcases List.mem_cons.1 hy with rfl | hy
          · exact ok
          · exact oks y hy
        · exact runs_list (hs.plain (by decide) (by decide)) (by intro y hy; cases hy; exact hs.core _ (by simp))
            (.cons runs_sym (.cons hx.run (.cons r .nil)))
    | cons i is ih =>
      obtain ⟨tops, t, ts, k', x, e, ok, oks, d, ds, ed, r⟩ := ih
      have hx := import_turns hs hi i k
      refine ⟨tops, importTop i, t :: ts, k', x, by rw [e]; rfl, hx.ok, ?_, .list [kw "import", .str i], d :: ds,
        by rw [ed]; rfl, ?_⟩
      · intro y hy
        rcases List.mem_cons.1 hy with rfl | hy
        · exact ok
        · exact oks y hy
      · exact runs_list (hs.plain (by decide) (by decide)) (by intro y hy; cases hy; exact hs.core _ (by simp))
          (.cons runs_sym (.cons hx.run (.cons r .nil)))
  obtain ⟨tops, t, ts, k', x, e, ok, oks, d, ds, ed, r⟩ := key imps
  refine ⟨tops, t, ts, k', x, e, ?_⟩
  -- `package` is rewritten to `ns` and `begin`
  have hpkg : packageMacro (packageWith path header body) =
      some (.list [kw "ns", .str path, .cons (.str "cora/init") (.list (imps.map .str)), .cons (kw "begin") (.list (d :: ds))]) := by
    have ha := append_list (imps.map fun i => .list [kw "import", .str i]) (export_ :: body)
    rw [← ed] at ha
    have hf : packageWith path header body = .cons (kw "package") (.cons (.str path) (.list
      (header.map Header.form ++ body))) := rfl
    have hm : (imps.map Datum.str).map (fun i => Datum.list [kw "import", i]) =
        imps.map fun i => Datum.list [kw "import", .str i] := by simp [List.map_map, Function.comp_def]
    have hx : Datum.cons (.list [kw "def", kw "*ns-export*", .list [kw "backquote", .list (es.map .sym)]]) (.list body) =
        .list (export_ :: body) := rfl
    rw [hf]
    simp only [packageMacro, cadr, cddr, cdr, car, Option.bind_some, bind, hp, hm, hx, ha]
  have hbegin : Runs mt (.cons (kw "begin") (.list (d :: ds))) k (doTops t ts) k' := by
    refine runs_macro (e1 := doForm d ds) (k1 := k) (hs.plain (by decide) (by decide)) (hs.std "begin" _ rfl)
      ⟨0, fun n _ => by
        have := rewriteBegin_list d ds
        simp [cdr, this, liftM, monadLift, MonadLift.monadLift, StateT.lift]⟩ ?_ r
    cases ds with
    | nil =>
      intro he
      have := congrArg sizeOf he
      simp [doForm, Datum.list] at this
      omega
    | cons => simp [doForm, Datum.list, kw]
  have himps : Runs mt (.cons (.str "cora/init") (.list (imps.map .str))) k (.cons (.str "cora/init") (.list (imps.map .str))) k := by
    have hl : ∀ l : List String, RunsList mt (l.map .str) k (l.map .str) k := by
      intro l
      induction l with
      | nil => exact .nil
      | cons a l ih => exact .cons (runs_atom (by simp)) ih
    exact runs_list (h := .str "cora/init") (es := imps.map .str) (ds := .str "cora/init" :: imps.map .str)
      ⟨by simp, by simp, by simp⟩ (by simp) (hl ("cora/init" :: imps))
  have hrun : Runs mt (packageWith path header body) k
      (.list [kw "ns", .str path, .cons (.str "cora/init") (.list (imps.map .str)), doTops t ts]) k' := by
    unfold packageWith at hpkg ⊢
    simp only [List.cons_append, Datum.list] at hpkg ⊢
    refine runs_macro (e1 := .list [kw "ns", .str path, .cons (.str "cora/init") (.list (imps.map .str)),
        .cons (kw "begin") (.list (d :: ds))]) (k1 := k) (hs.plain (by decide) (by decide)) (hs.std "package" _ rfl)
      ⟨0, fun n _ => by simp [hpkg, liftM, monadLift, MonadLift.monadLift, StateT.lift, Datum.list]⟩ (by simp [kw, Datum.list]) ?_
    exact runs_list (hs.plain (s := "ns") (by decide) (by decide)) (by intro y hy; cases hy; exact hs.core _ (by simp))
      (.cons runs_sym (.cons (runs_atom (by simp)) (.cons himps (.cons hbegin .nil))))
  obtain ⟨N, hN⟩ := hrun
  refine ⟨N + 1, fun n hn => ?_⟩
  obtain ⟨m, rfl⟩ : ∃ m, n = m + 1 := ⟨n - 1, by omega⟩
  rw [macroexpand]
  have hstr : ∀ l : List String, strings (.list (l.map .str)) = some l := by
    intro l
    induction l with
    | nil => rfl
    | cons a l ih => simp [Datum.list, strings, ih]
  have hns : nsParse mt.ex [] "" [] (.list [kw "ns", .str path, .cons (.str "cora/init") (.list (imps.map .str)), doTops t ts]) =
      some (resolveTops mt.ex path ("cora/init" :: imps) t ts).form := by
    simp only [Datum.list]
    rw [nsParse]
    have := hstr ("cora/init" :: imps)
    simp only [List.map_cons, Datum.list] at this
    simp [this, nsParse_tops (mt := mt) ts t ("cora/init" :: imps) ok oks]
  simp [bind, StateT.bind, hN m (by omega), hns, liftM, monadLift, MonadLift.monadLift, StateT.lift]

theorem header_form : ∀ (imps : List String) (es e0 : List Sym),
    headerImports (imps.map .import_ ++ [.export_ es]) = imps ∧ headerExports (imps.map .import_ ++ [.export_ es]) e0 = es
  | [], _, _ => ⟨rfl, rfl⟩
  | i :: imps, es, e0 => by
    obtain ⟨h1, h2⟩ := header_form imps es e0
    exact ⟨by simp [headerImports, h1], by simpa [headerExports] using h2⟩

/-- … in particular a package with its imports first and then one `export` -/
theorem C45_package (hs : Std mt) (hi : mt.fn (.named "import") = none) (path : String) (imps : List String) (es : List Sym)
    (hes : es.head? ≠ some (.named "unquote")) (body : List Datum) (hb : NoHeader body)
    (hbody : ∀ d ∈ body, TopExpandable mt K d) (k : Nat) (hk : K ≤ k) :
    ∃ tops t ts k', TopExpansions mt K body tops ∧ t :: ts = imps.map importTop ++ exportTop es :: tops ∧
      ∃ N, ∀ n, N ≤ n → macroexpand mt n (packageForm path imps es body) k =
        some ((resolveTops mt.ex path ("cora/init" :: imps) t ts).form, k') := by
  obtain ⟨h1, h2⟩ := header_form imps es []
  have := C45_package_header hs hi path (imps.map .import_ ++ [.export_ es]) (by rw [h2]; exact hes) body hb hbody k hk
  rw [h1, h2] at this
  simpa only [packageWith, packageForm, List.map_append, List.map_map, Function.comp_def, Header.form, List.map_cons, List.map_nil,
    List.append_assoc, List.cons_append, List.nil_append] using this

/-- of two `export`s in a package only the last one counts -/
theorem C45_last_export (hs : Std mt) (hi : mt.fn (.named "import") = none) (k : Nat) :
    ∃ k' N, ∀ n, N ≤ n → macroexpand mt n (packageWith "p" [.export_ [.named "f"], .export_ [.named "g"]] []) k =
      some ((Core.app (.var (.named "set")) [.quote (kw "p#*ns-export*"),
        .app (.var (.named "cons")) [.quote (kw "g"), .lit .nil]]).form, k') := by
  obtain ⟨tops, t, ts, k', ht, e, N, hN⟩ := C45_package_header (K := k) hs hi "p" [.export_ [.named "f"], .export_ [.named "g"]]
    (by simp [headerExports]) [] (by intro h t h'; simp [Datum.list] at h') (by simp) k (Nat.le_refl k)
  cases ht
  simp only [headerImports, headerExports, List.map_nil, List.nil_append, List.cons.injEq] at e hN
  obtain ⟨rfl, rfl⟩ := e
  refine ⟨k', N, fun n hn => ?_⟩
  rw [hN n hn]
  simp [resolveTops, Top.resolve, exportTop, consC, Core.resolve, Core.resolves, resolve, Sym.primitive, primArity, own,
    Sym.qualified, Sym.text, ofPackage]

/-- the forms after the imports of a package see the last import first, then `cora/init` -/
theorem C45_order (ex : Exports) (path : String) (imps : List String) (t : Top) (ts : List Top) :
    ∃ u us, u :: us = imps.map importTop ++ t :: ts ∧ ∀ scope, resolveTops ex path scope u us =
      imps.foldr (fun i f scope => .seq ((importTop i).resolve ex path scope) (f (i :: scope)))
        (fun scope => resolveTops ex path scope t ts) scope := by
  induction imps with
  | nil => exact ⟨t, ts, rfl, fun _ => rfl⟩
  | cons i is ih =>
    obtain ⟨u, us, e, h⟩ := ih
    exact ⟨importTop i, u :: us, by rw [e]; rfl, fun scope => by
      simp only [resolveTops, List.foldr_cons, h]
      rfl⟩

/-- a name that the last import exports and that is neither local nor a primitive means what that package means by it -/
theorem C45_last_import_wins {ex : Exports} {path i : String} {scope : List String} {locals : List Sym} {x : Sym}
    (hl : x ∉ locals) (hp : x.primitive = false) (hx : x ∈ ex i) :
    resolve ex path (i :: scope) locals x = ofPackage i x := by
  simp [resolve, hl, hp, resolveGlobal, hx]

/-! ### examples -/

example := C45_package (K := 1) initMacros_std rfl "p" ["a", "b"] [.named "f"] (by simp)
  [.list [kw "def", kw "f", kw "x"], setG.form]
  (by intro h t e r; simp [Datum.list] at e; obtain ⟨rfl, _⟩ := e; simp [kw])
  (by simp only [List.mem_cons, List.not_mem_nil, or_false]; rintro d (rfl | rfl)
      · exact top_define initMacros_std (x_expandable 1)
      · exact top_expr (setG_expandable 1)) 1 (Nat.le_refl 1)
example := C45_no_clash (p := "a") (q := "b") (x := .named "f") (y := .named "f")
  (by simp [Sym.qualified, Sym.text]) (by simp [Sym.qualified, Sym.text])
example : resolve (fun p => if p = "b" then [.named "g"] else []) "p" ["a", "b"] [.named "y"] (.named "g") = .named "b#g" := by
  decide

end Cora.Macro
