import Verif.Props.Source
/-
C78 with type checking on.
-/
open Spec Spec.Lang Spec.Compiled

namespace Spec.Lang

/-- what is done for a form of the file before all of its code: a note is evaluated (`(:type e …)` as `(begin e …)`, `(:declare n t)` as
`(declare n t)`), the type of any other form is checked after expanding it -/
def Datum.check : Datum → Datum
  | .cons (.sym (.named ":type")) e => .cons (.sym (.named "begin")) e
  | .cons (.sym (.named ":declare")) e => .cons (.sym (.named "declare")) e
  | d => .list [.sym (.named "cora/lib/infer#check-type!"),
      .list [.sym (.named "macroexpand"), .list [.sym (.named "backquote"), d]], .list [.sym (.named "cora/lib/infer#tvar")]]

/-- the file with its checks: first the checks of all forms and the notes, as they come; then the forms without the notes -/
def checked (ds : List Datum) : List Datum := ds.map Datum.check ++ withoutNotes ds

end Spec.Lang

namespace Cora.Toc
open Macro Compile

variable {T : Setting} {mt : Macros} {K k k1 : Nat}

theorem listVal_vals : ∀ ds : List Datum, listVal (ds.map Datum.val) .nil = (Datum.list ds).val
  | [] => rfl
  | d :: ds => by simp only [List.map_cons, listVal, Datum.list, Datum.val, listVal_vals ds]

theorem split_both : ∀ (ds type code : List Datum),
    split (.list ds) type code = some (type.reverse ++ ds.map Datum.check, code.reverse ++ withoutNotes ds)
  | [], type, code => by rw [Datum.list, split]; simp [withoutNotes]
  | d :: ds, type, code => by
    rw [Datum.list]
    rcases note_cases d with ⟨e, rfl⟩ | ⟨e, rfl⟩ | ⟨hn, h1, h2⟩
    · rw [split, split_both ds]; simp [withoutNotes, Datum.check, Datum.isNote, kw]
    · rw [split, split_both ds]; simp [withoutNotes, Datum.check, Datum.isNote, kw]
    · have hc : d.check = checkForm d := by
        unfold Datum.check
        split
        · exact absurd rfl (h1 _)
        · exact absurd rfl (h2 _)
        · rfl
      rw [split, split_both ds]
      · simp [withoutNotes, hn, hc]
      · exact h1
      · exact h2

theorem split_checked (ds : List Datum) : (split (.list ds) [] []).map (choose true) = some (.list (checked ds)) := by
  rw [split_both]; simp [choose, checked]

theorem splitTop_package_checked (path : String) (hs : List Header) {ds : List Datum} (h : PlainStart ds) :
    splitTop true (packageWith path hs ds) = some (packageWith path hs (checked ds)) := by
  have := extract_header (k := fun body => (split body [] []).map (choose true)) h (split_checked ds) hs
  simp only [packageWith, List.cons_append, Datum.list]
  rw [splitTop, extract, this]; rfl

theorem splitTop_begin_checked (hs : List Header) {ds : List Datum} (h : PlainStart ds) :
    splitTop true (.list (kw "begin" :: hs.map Header.form ++ ds)) = some (.list (kw "begin" :: hs.map Header.form ++ checked ds)) := by
  have := extract_header (k := fun body => (split body [] []).map (choose true)) h (split_checked ds) hs
  simp only [List.cons_append, Datum.list]
  rw [splitTop, extract, this]
  · rfl
  all_goals simp

/-- Compiling is set up as for `Ready`, with type checking on. -/
structure Checking (T : Setting) (imps : List String) (k : Nat) (mt : Macros) (k1 : Nat) : Prop where
  check : T.check = true
  known : T.known imps k = some (mt, k1)
  std : Std mt
  noImport : mt.fn (.named "import") = none

/-- **C78** with type checking on, packages. The program of a package is: the imports, the list of exported names, the checks of all forms and
the notes, and after all of them the forms without the notes; each expanded, with all names resolved as in C45. -/
theorem C78_checked_package_partial {path : String} {header : List Header} {noted : List Datum} (hr : Checking T (headerImports header) k mt k1)
    (hk : K ≤ k1) {src : Bytes} (hsrc : IsText src [packageWith path header noted])
    (hes : (headerExports header []).head? ≠ some (.named "unquote")) (hplain : PlainStart noted) (hbody : NoHeader (checked noted))
    (hexp : ∀ d ∈ checked noted, TopExpandable mt K d) :
    ∃ tops t ts k2, TopExpansions mt K (checked noted) tops ∧
      t :: ts = (headerImports header).map importTop ++ exportTop (headerExports header []) :: tops ∧
      ∃ N, ∀ n, N ≤ n → program T n src k = some (resolveTops mt.ex path ("cora/init" :: headerImports header) t ts, k2) := by
  obtain ⟨tops, t, ts, k2, h1, h2, N1, h3⟩ := C45_package_header hr.std hr.noImport path header hes _ hbody hexp k1 hk
  obtain ⟨N2, h4⟩ := read_text hsrc
  refine ⟨tops, t, ts, k2, h1, h2, max N1 N2, fun n hn => ?_⟩
  have h4 := h4 n (by omega)
  simp only at h4
  have h5 : handleImports (packageWith path header noted) = some (headerImports header) := by
    simp only [packageWith, List.cons_append, Datum.list]
    rw [handleImports]
    exact handleImports_header hplain header
  have hall : ∀ x ∈ t :: ts, Top.ok mt x := by
    rw [h2]
    intro x hx
    simp only [List.mem_append, List.mem_map, List.mem_cons] at hx
    rcases hx with ⟨p, _, rfl⟩ | rfl | hx
    · exact (import_turns hr.std hr.noImport p 0).ok
    · exact (turns_define (x := .named "*ns-export*") hr.std (export_turns hr.std _ hes 0)).ok
    · exact topExpansions_ok h1 x hx
  have h6 : formOf (resolveTops mt.ex path ("cora/init" :: headerImports header) t ts).form =
      some (resolveTops mt.ex path ("cora/init" :: headerImports header) t ts) :=
    formOf_form _ (ok_resolveTops mt.ex path ts t _ (hall t (by simp)) fun x hx => hall x (by simp [hx]))
  unfold program expanded
  obtain ⟨s, hs, hs'⟩ := Option.bind_eq_some_iff.mp h4
  simp [hs, hs', h5, hr.known, hr.check, splitTop_package_checked path header hplain, h3 n (by omega), h6]

/-- **C78** with type checking on, files of several forms outside of packages -/
theorem C78_checked_forms_partial {imps : List String} {noted : List Datum} (hr : Checking T imps k mt k1) (hk : K ≤ k1) {src : Bytes}
    (hsrc : IsText src ((imps.map fun p => .list [kw "import", .str p]) ++ noted)) (htwo : 2 ≤ imps.length + noted.length)
    (hplain : PlainStart noted) (hexp : ∀ d ∈ checked noted, TopExpandable mt K d) :
    ∃ t ts k2, TopExpansions mt K ((imps.map fun p => .list [kw "import", .str p]) ++ checked noted) (t :: ts) ∧
      ∃ N, ∀ n, N ≤ n → program T n src k = some (resolveTops mt.ex "" [] t ts, k2) := by
  have hform : ∀ l : List Datum, (imps.map fun p => Datum.list [kw "import", .str p]) ++ l = (imps.map Header.import_).map Header.form ++ l := by
    intro l; rw [List.map_map]; rfl
  have himps : ∀ l : List String, headerImports (l.map .import_) = l := by
    intro l
    induction l with
    | nil => rfl
    | cons p l ih => simp [headerImports, ih]
  rw [hform] at hsrc ⊢
  have hlen : 0 < ((imps.map Header.import_).map Header.form ++ checked noted).length := by
    simp only [List.length_append, List.length_map, checked]; omega
  obtain ⟨d, ds, hd⟩ : ∃ d ds, (imps.map Header.import_).map Header.form ++ checked noted = d :: ds := by
    cases h : (imps.map Header.import_).map Header.form ++ checked noted with
    | nil => rw [h] at hlen; simp at hlen
    | cons d ds => exact ⟨d, ds, rfl⟩
  have hall : ∀ x ∈ d :: ds, TopExpandable mt K x := by
    rw [← hd]
    intro x hx
    simp only [List.mem_append, List.mem_map] at hx
    rcases hx with ⟨_, ⟨p, _, rfl⟩, rfl⟩ | hx
    · exact fun k _ => ⟨_, _, import_turns hr.std hr.noImport p k⟩
    · exact hexp x hx
  obtain ⟨t, ts, k2, h1, h2, N1, h3⟩ := expand_begin hr.std hall hk
  obtain ⟨N2, h4⟩ := read_text hsrc
  rw [hd]
  refine ⟨t, ts, k2, h1, max N1 N2, fun n hn => ?_⟩
  have h4 := h4 n (by omega)
  have h5 := handleImports_header hplain (imps.map .import_)
  rw [himps] at h5
  have h6 := splitTop_begin_checked (imps.map .import_) hplain
  have h7 := formOf_form _ (ok_resolveTops mt.ex "" ts t [] (h2 t (by simp)) fun x hx => h2 x (by simp [hx]))
  rw [List.cons_append, List.cons_append, hd] at h6
  have hlen : 2 ≤ ((imps.map Header.import_).map Header.form ++ noted).length := by simpa using htwo
  generalize (imps.map Header.import_).map Header.form ++ noted = all at h4 h5 h6 hlen
  match all, hlen, h4 with
  | d1 :: d2 :: r, _, h4 =>
    simp only at h4
    have h8 : handleImports (.list (kw "begin" :: d1 :: d2 :: r)) = some imps := by rw [Datum.list, handleImports, h5]
    unfold program expanded
    obtain ⟨s, hs, hs'⟩ := Option.bind_eq_some_iff.mp h4
    simp [hs, hs', h8, hr.known, hr.check, h6, h3 n (by omega), h7]

/-! ### what a check does -/

mutual
theorem evalTmpl_plain {W : Type} {E : Ext W} {env : Env} : ∀ (t : Tmpl Datum) (tc : Tmpl Core), holes t = [] → TmplExpansion mt K t tc →
    ∀ w v w', EvalTmpl E env w tc v w' ↔ v = t.form.val ∧ w' = w
  | .atom d, tc, _, hx, w, v, w' => by
    cases hx
    constructor
    · intro h; cases h; exact ⟨rfl, rfl⟩
    · rintro ⟨rfl, rfl⟩; exact .atom _ _
  | .hole e, tc, hh, hx, w, v, w' => by simp [holes] at hh
  | .list t ts, tc, hh, hx, w, v, w' => by
    simp only [holes, List.append_eq_nil_iff] at hh
    cases hx with
    | list h1 h2 =>
      constructor
      · intro h
        cases h with
        | list _ _ _ _ _ _ _ ha hb =>
          obtain ⟨rfl, rfl⟩ := (evalTmpl_plain t _ hh.1 h1 _ _ _).1 ha
          obtain ⟨rfl, rfl⟩ := (evalTmpls_plain ts _ hh.2 h2 _ _ _).1 hb
          refine ⟨?_, rfl⟩
          simp only [Tmpl.form, Datum.val, listVal, listVal_vals]
      · rintro ⟨rfl, rfl⟩
        have := EvalTmpl.list (E := E) (env := env) w' _ _ _ _ w' w' ((evalTmpl_plain t _ hh.1 h1 w' _ w').2 ⟨rfl, rfl⟩)
          ((evalTmpls_plain ts _ hh.2 h2 w' _ w').2 ⟨rfl, rfl⟩)
        simpa only [Tmpl.form, Datum.val, listVal, listVal_vals] using this
theorem evalTmpls_plain {W : Type} {E : Ext W} {env : Env} : ∀ (ts : List (Tmpl Datum)) (tcs : List (Tmpl Core)), holess ts = [] →
    TmplExpansions mt K ts tcs → ∀ w vs w', EvalTmpls E env w tcs vs w' ↔ vs = (Tmpl.forms ts).map Datum.val ∧ w' = w
  | [], tcs, _, hx, w, vs, w' => by
    cases hx
    constructor
    · intro h; cases h; exact ⟨rfl, rfl⟩
    · rintro ⟨rfl, rfl⟩; exact .nil _
  | t :: ts, tcs, hh, hx, w, vs, w' => by
    simp only [holess, List.append_eq_nil_iff] at hh
    cases hx with
    | cons h1 h2 =>
      constructor
      · intro h
        cases h with
        | cons _ _ _ _ _ _ _ ha hb =>
          obtain ⟨rfl, rfl⟩ := (evalTmpl_plain t _ hh.1 h1 _ _ _).1 ha
          obtain ⟨rfl, rfl⟩ := (evalTmpls_plain ts _ hh.2 h2 _ _ _).1 hb
          exact ⟨rfl, rfl⟩
      · rintro ⟨rfl, rfl⟩
        exact .cons _ _ _ _ _ _ _ ((evalTmpl_plain t _ hh.1 h1 _ _ _).2 ⟨rfl, rfl⟩) ((evalTmpls_plain ts _ hh.2 h2 _ _ _).2 ⟨rfl, rfl⟩)
end

/-- **C78**, what the check of a form does. For a form that is data of proper lists without `(unquote e)` (a template without holes): the check
calls the type checker with what the macro expander makes of this very form, and with a new type variable. -/
theorem C78_check_partial (hs : Std mt) (hm : ∀ s ∈ ["cora/lib/infer#check-type!", "macroexpand", "cora/lib/infer#tvar"], mt.fn (.named s) = none)
    (t : Tmpl Datum) (hok : t.ok) (hh : holes t = []) (hn : t.form.isNote = false) (k : Nat) (hk : K ≤ k) :
    ∃ c k', Turns mt t.form.check k (.app (v! "cora/lib/infer#check-type!") [.app (v! "macroexpand") [c], .app (v! "cora/lib/infer#tvar") []]) k' ∧
      ∀ {W : Type} (E : Ext W) env w v w', find (.named "cons") env = none → (Eval E env w c v w' ↔ v = t.form.val ∧ w' = w) := by
  obtain ⟨c, k', tc, tt, -, hx, ev⟩ := C44_quasi_partial (K := K) hs t hok (by simp [hh]) k hk
  have hsp : ∀ s ∈ ["cora/lib/infer#check-type!", "macroexpand", "cora/lib/infer#tvar"], ¬ special mt (.named s) := by
    intro s h e
    have hmn := hm s h
    rcases e with e | e | e
    · simp at h e
      rcases h with rfl | rfl | rfl <;> simp at e
    · rw [hmn] at e; simp at e
    · rw [hs.protect] at e; cases e
  have hc : t.form.check = checkForm t.form := by
    rcases note_cases t.form with ⟨e, he⟩ | ⟨e, he⟩ | ⟨_, h1, h2⟩
    · rw [he] at hn; cases hn
    · rw [he] at hn; cases hn
    · unfold Datum.check
      split
      · rename_i e; exact absurd e (h1 _)
      · rename_i e; exact absurd e (h2 _)
      · rfl
  refine ⟨c, k', ?_, fun {W} E env w v w' hcons => (ev E env w v w' hcons).trans (evalTmpl_plain t tc hh hx w v w')⟩
  rw [hc]
  exact turns_app_sym hs (hsp _ (by simp)) (.cons (turns_app_sym hs (hsp _ (by simp)) (.cons tt .nil))
    (.cons (turns_app_sym hs (hsp _ (by simp)) .nil) .nil))

/-! ### the hypotheses are met -/

def cSetting : Setting := { mSetting with check := true }

/-- `(def y (list 1 2))` as a template -/
def formY : Tmpl Datum := .list (.atom (kw "def")) [.atom (kw "y"), .list (.atom (kw "list")) [.atom (.int 1), .atom (.int 2)]]

example : ∃ c k', Turns initMacros (Datum.check (.list [kw "def", kw "y", .list [kw "list", .int 1, .int 2]])) 1
    (.app (v! "cora/lib/infer#check-type!") [.app (v! "macroexpand") [c], .app (v! "cora/lib/infer#tvar") []]) k' := by
  obtain ⟨c, k', h, -⟩ := C78_check_partial (K := 1) initMacros_std (by decide) formY (by simp [formY, Tmpl.ok, Tmpl.oks, kw]) rfl rfl 1 (Nat.le_refl 1)
  exact ⟨c, k', h⟩

/-- a package with a note and a definition -/
def notedC : List Datum := [.list [kw ":declare", .list [kw "quote", kw "y"], .list [kw "quote", kw "int"]], .list [kw "def", kw "y", .int 5]]

def formC : Tmpl Datum := .list (.atom (kw "def")) [.atom (kw "y"), .atom (.int 5)]

theorem notedC_expandable : ∀ d ∈ checked notedC, TopExpandable initMacros 1 d := by
  intro d hd
  have hd : d = .list [kw "declare", .list [kw "quote", kw "y"], .list [kw "quote", kw "int"]] ∨ d = formC.form.check ∨
      d = .list [kw "def", kw "y", .int 5] := by
    simpa [checked, notedC, withoutNotes, Datum.isNote, Datum.check, Datum.list, kw, formC, Tmpl.form, Tmpl.forms] using hd
  rcases hd with rfl | rfl | rfl
  · intro k hk
    have h := turns_app_sym (x := .named "declare") initMacros_std
      (by rintro (e | e | e) <;> first | (simp at e; done) | exact absurd e (by decide)) (.cons (turns_quote initMacros_std (kw "y") k)
      (.cons (turns_quote initMacros_std (kw "int") k) .nil))
    exact ⟨.expr (.app (.var (.named "declare")) [.quote (kw "y"), .quote (kw "int")]), _, h.run, h.le, h.ok⟩
  · intro k hk
    obtain ⟨c, k', h, -⟩ := C78_check_partial (K := 1) initMacros_std (by decide) formC (by simp [formC, Tmpl.ok, Tmpl.oks, kw]) rfl rfl k hk
    exact ⟨.expr (.app (v! "cora/lib/infer#check-type!") [.app (v! "macroexpand") [c], .app (v! "cora/lib/infer#tvar") []]), _, h.run, h.le, h.ok⟩
  · exact fun k hk => ⟨_, _, turns_define initMacros_std (turns_lit (.int 5) k)⟩

example : ∃ src : Bytes, ∃ tops t ts k2, TopExpansions initMacros 1 (checked notedC) tops ∧
    t :: ts = [importTop "cora/lib/infer", exportTop [.named "y"]] ++ tops ∧
    ∃ N, ∀ n, N ≤ n → program { someSetting with check := true } n src 1 =
      some (resolveTops (fun _ => []) "p" ["cora/init", "cora/lib/infer"] t ts, k2) := by
  obtain ⟨src, -, hsrc⟩ := isText_printed (d := packageWith "p" [.import_ "cora/lib/infer", .export_ [.named "y"]] notedC) (s := _) rfl
    (printable_spec (by decide +kernel))
  exact ⟨_, C78_checked_package_partial (T := { someSetting with check := true }) (mt := initMacros) (k1 := 1) ⟨rfl, rfl, initMacros_std, rfl⟩
    (Nat.le_refl 1) hsrc (by simp [headerExports]) (plain_of.mpr ⟨by decide, by decide⟩) (by
      intro h t e r
      simp [checked, notedC, Datum.check, Datum.list] at e; obtain ⟨rfl, _⟩ := e; simp [kw]) notedC_expandable⟩

/-! ### where checking is wrong -/

/-- `(def y (lambda (x) `(,x)))` -/
def quasiSrc : Bytes := ascii "(def y (lambda (x) (backquote ((unquote x)))))"

/-- A form may use quasi-quotation: then its check evaluates the expressions in the holes, outside of the function they are in. The file is
right and is compiled and loaded with checking off; with checking on its program has no value whenever the global variable `x` has none, whatever
the type checker does. -/
theorem C78_check_quasi_wrong : Runs mSetting quasiSrc ∧ ∃ e k2, program cSetting 100 quasiSrc 1 = some (e, k2) ∧
    ∀ {W : Type} (E : Ext W) (w : World W), w.globals (.named "x") = none → ∀ v w', ¬ Eval E [] w e v w' := by
  let q := fun s : String => Core.quote (kw s)
  let nil := Core.lit .nil
  let y := set! "y" (.lam [.named "x"] (consC (v! "x") nil))
  let c := consC (q "def") (consC (q "y") (consC (consC (q "lambda") (consC (consC (q "x") nil) (consC (consC (q "backquote")
    (consC (consC (v! "x") nil) nil)) nil))) nil))
  refine ⟨⟨y, 1, _, _, program_of (by decide +kernel) (by simp [y, nil, consC, okCore, okCores, keywords]), evalF_sound 20 rfl⟩,
    .seq (.app (v! "cora/lib/infer#check-type!") [.app (v! "macroexpand") [c], .app (v! "cora/lib/infer#tvar") []]) y, 1,
    program_of (by decide +kernel) (by simp [c, q, y, nil, consC, okCore, okCores, keywords]), fun {W} E w hx v w' => ?_⟩
  have hcons : ∀ {a d : Core} {w : World W} {v w'}, Eval E [] w (consC a d) v w' → ∃ x y w1, Eval E [] w a x w1 ∧ Eval E [] w1 d y w' :=
    fun h => by obtain ⟨x, y, w1, h1, h2, -⟩ := (eval_consC rfl).1 h; exact ⟨x, y, w1, h1, h2⟩
  have hq : ∀ {s : String} {w : World W} {v w'}, Eval E [] w (q s) v w' → w' = w := fun h => (eval_quote.1 h).2
  have hnil : ∀ {w : World W} {v w'}, Eval E [] w nil v w' → w' = w := fun h => (eval_lit.1 h).2
  have hc : ∀ v w', ¬ Eval E [] w c v w' := by
    intro v w' h
    obtain ⟨_, _, _, h1, h⟩ := hcons h; cases hq h1
    obtain ⟨_, _, _, h1, h⟩ := hcons h; cases hq h1
    obtain ⟨_, _, _, h, -⟩ := hcons h
    obtain ⟨_, _, _, h1, h⟩ := hcons h; cases hq h1
    obtain ⟨_, _, _, h1, h⟩ := hcons h
    obtain ⟨_, _, _, h2, h3⟩ := hcons h1; cases hq h2; cases hnil h3
    obtain ⟨_, _, _, h, -⟩ := hcons h
    obtain ⟨_, _, _, h1, h⟩ := hcons h; cases hq h1
    obtain ⟨_, _, _, h, -⟩ := hcons h
    obtain ⟨_, _, _, h, -⟩ := hcons h
    cases h with
    | «local» _ _ _ _ h => simp [find] at h
    | «global» _ _ _ _ _ h => rw [hx] at h; cases h
  refine no_seq_left fun u w1 h => ?_
  have happ : ∀ {s : String} {es : List Core} {v w'}, primArity s = none → Eval E [] w (.app (v! s) es) v w' → ∃ vs w2, EvalArgs E [] w es vs w2 := by
    intro s es v w' hp h
    cases h with
    | prim _ _ _ _ p vs _ w1 _ h1 _ _ => simp [Core.primOf, hp] at h1
    | app _ _ _ _ g vs _ w1 w2 _ _ h2 h3 _ =>
      cases h2 with
      | «local» _ _ _ _ h => simp [find] at h
      | «global» _ _ _ _ _ h => exact ⟨_, _, h3⟩
  obtain ⟨_, _, h⟩ := happ (by decide) h
  obtain ⟨_, _, _, -, h, -⟩ := evalArgs_cons.1 h
  obtain ⟨_, _, h⟩ := happ (by decide) h
  obtain ⟨_, _, _, -, h, -⟩ := evalArgs_cons.1 h
  exact hc _ _ h

end Cora.Toc
