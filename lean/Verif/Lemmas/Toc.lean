import Verif.Model.Toc
import Verif.Spec.Source
import Verif.Props.Names
import Verif.Props.Reader
/-
Lemmas for C78: from text to programs.
-/
open Spec Spec.Lang
namespace Cora.Toc
open Macro

/-! ### reading -/

theorem fromUTF8_toUTF8 (s : String) : String.fromUTF8? ⟨s.toUTF8.data.toList.toArray⟩ = some s := by
  have : (⟨s.toUTF8.data.toList.toArray⟩ : ByteArray) = s.toByteArray := rfl
  rw [this, String.fromUTF8?, dif_pos s.isValidUTF8]
  rfl

theorem datumOf_sexp : ∀ (d : Datum) {s : Sexp}, d.sexp = some s → datumOf s = some d
  | .int n, s, h => by simp only [Datum.sexp, Option.some.injEq] at h; subst h; rfl
  | .bool n, s, h => by simp only [Datum.sexp, Option.some.injEq] at h; subst h; rfl
  | .nil, s, h => by simp only [Datum.sexp, Option.some.injEq] at h; subst h; rfl
  | .str x, s, h => by
    simp only [Datum.sexp, Option.some.injEq] at h; subst h
    rw [datumOf, fromUTF8_toUTF8]; rfl
  | .sym (.named x), s, h => by
    simp only [Datum.sexp, Option.some.injEq] at h; subst h
    rw [datumOf, fromUTF8_toUTF8]; rfl
  | .sym (.gen x), s, h => by simp [Datum.sexp] at h
  | .cons a d, s, h => by
    rw [Datum.sexp] at h
    split at h
    · rename_i x y hx hy
      cases h
      rw [datumOf, datumOf_sexp a hx, datumOf_sexp d hy]; rfl
    · simp at h

theorem datumOf_list : ∀ {ds : List Datum} {ss : List Sexp}, ds.map Datum.sexp = ss.map some →
    datumOf (Sexp.list ss) = some (.list ds)
  | [], [], _ => rfl
  | d :: ds, s :: ss, h => by
    simp only [List.map_cons, List.cons.injEq] at h
    rw [Sexp.list, datumOf, datumOf_sexp d h.1, datumOf_list h.2]; rfl
  | [], _ :: _, h => by simp at h
  | _ :: _, [], h => by simp at h

theorem ascii_begin : datumOf (.sym (ascii "begin")) = some (kw "begin") :=
  datumOf_sexp (kw "begin") (by rw [Datum.sexp]; rfl)

/-- what is read of a file -/
theorem read_text {t : List UInt8} {ds : List Datum} (h : IsText t ds) :
    ∃ N, ∀ n, N ≤ n → (Reader.readFile n n t).bind datumOf = match (generalizing := false) ds with
      | [] => none
      | [d] => some d
      | d1 :: d2 :: r => some (.list (kw "begin" :: d1 :: d2 :: r)) := by
  obtain ⟨ss, h1, h2⟩ := h
  obtain ⟨N, hN⟩ := Reader.C57_file_as_sexp h1
  refine ⟨N, fun n hn => ?_⟩
  rw [hN n n hn hn]
  match ds, ss, h2 with
  | [], [], _ => rfl
  | [], _ :: _, h => simp at h
  | [_], [], h => simp at h
  | [_], _ :: _ :: _, h => simp at h
  | _ :: _ :: _, [], h => simp at h
  | _ :: _ :: _, [_], h => simp at h
  | [d], [s], h => simpa using datumOf_sexp d (by simpa using h)
  | d1 :: d2 :: r, s1 :: s2 :: r', h =>
    simp only [Option.bind_some]
    rw [Sexp.list, datumOf, ascii_begin, datumOf_list h]
    rfl

/-! ### notes -/

theorem note_cases (d : Datum) : (∃ e, d = .cons (kw ":type") e) ∨ (∃ e, d = .cons (kw ":declare") e) ∨
    d.isNote = false ∧ (∀ e, d ≠ .cons (kw ":type") e) ∧ ∀ e, d ≠ .cons (kw ":declare") e := by
  by_cases h1 : ∃ e, d = .cons (kw ":type") e
  · exact .inl h1
  by_cases h2 : ∃ e, d = .cons (kw ":declare") e
  · exact .inr (.inl h2)
  have h1 := fun e h => h1 ⟨e, h⟩
  have h2 := fun e h => h2 ⟨e, h⟩
  refine .inr (.inr ⟨?_, h1, h2⟩)
  unfold Datum.isNote
  split
  · exact absurd rfl (h1 _)
  · exact absurd rfl (h2 _)
  · rfl

theorem split_list : ∀ (ds type code : List Datum),
    ∃ type', split (.list ds) type code = some (type', code.reverse ++ withoutNotes ds)
  | [], type, code => ⟨type.reverse, by rw [Datum.list, split]; simp [withoutNotes]⟩
  | d :: ds, type, code => by
    rw [Datum.list]
    rcases note_cases d with ⟨e, rfl⟩ | ⟨e, rfl⟩ | ⟨hn, h1, h2⟩
    · obtain ⟨t', h⟩ := split_list ds (.cons (kw "begin") e :: type) code
      exact ⟨t', by rw [split, h]; rfl⟩
    · obtain ⟨t', h⟩ := split_list ds (.cons (kw "declare") e :: type) code
      exact ⟨t', by rw [split, h]; rfl⟩
    · obtain ⟨t', h⟩ := split_list ds (checkForm d :: type) (d :: code)
      refine ⟨t', ?_⟩
      rw [split, h]
      · simp [withoutNotes, hn]
      · exact h1
      · exact h2

/-- the list does not start with a form of a header, nor with the names `begin` and `package` -/
def PlainStart (ds : List Datum) : Prop :=
  ∀ d, ds.head? = some d → (∀ r, d ≠ .cons (kw "import") r ∧ d ≠ .cons (kw "export") r) ∧ d ≠ kw "begin" ∧ d ≠ kw "package"

theorem handleImports_plain {ds : List Datum} (h : PlainStart ds) : handleImports (.list ds) = some [] := by
  cases ds with
  | nil => rfl
  | cons d ds =>
    obtain ⟨h1, h2, h3⟩ := h d rfl
    rw [Datum.list, handleImports.eq_def]
    split
    · rename_i e; injection e with e _; exact absurd e h3
    · rename_i e; cases e; exact absurd rfl h2
    · rename_i e; cases e; exact absurd rfl (h1 _).2
    · rename_i e; cases e; exact absurd rfl (h1 _).1
    · rfl

theorem handleImports_header {ds : List Datum} (h : PlainStart ds) : ∀ hs : List Header,
    handleImports (.list (hs.map Header.form ++ ds)) = some (headerImports hs)
  | [] => handleImports_plain h
  | .import_ p :: hs => by
    have := handleImports_header h hs
    simp only [List.map_cons, List.cons_append, Datum.list, Header.form]
    rw [handleImports, this]; rfl
  | .export_ es :: hs => by
    have := handleImports_header h hs
    simp only [List.map_cons, List.cons_append, Datum.list, Header.form]
    rw [handleImports, this]; rfl

theorem extract_plain {k : Datum → Option Datum} {ds : List Datum} (h : PlainStart ds) : extract k (.list ds) = k (.list ds) := by
  cases ds with
  | nil => rfl
  | cons d ds =>
    obtain ⟨h1, h2, h3⟩ := h d rfl
    rw [Datum.list, extract.eq_def]
    split
    · rename_i e; injection e with e _; exact absurd e h3
    · rename_i e; cases e; exact absurd rfl (h1 _).1
    · rename_i e; cases e; exact absurd rfl (h1 _).2
    · rename_i e; cases e; exact absurd rfl h2
    · rfl

theorem extract_header {k : Datum → Option Datum} {ds r : List Datum} (h : PlainStart ds) (hk : k (.list ds) = some (.list r)) :
    ∀ hs : List Header, extract k (.list (hs.map Header.form ++ ds)) = some (.list (hs.map Header.form ++ r))
  | [] => by simpa using (extract_plain h).trans hk
  | .import_ p :: hs => by
    have := extract_header h hk hs
    simp only [List.map_cons, List.cons_append, Datum.list, Header.form]
    rw [extract, this]; rfl
  | .export_ es :: hs => by
    have := extract_header h hk hs
    simp only [List.map_cons, List.cons_append, Datum.list, Header.form]
    rw [extract, this]; rfl

theorem split_code (ds : List Datum) : (split (.list ds) [] []).map (choose false) = some (.list (withoutNotes ds)) := by
  obtain ⟨t', h⟩ := split_list ds [] []
  rw [h]; simp [choose]

/-- a package without its notes -/
theorem splitTop_package (path : String) (hs : List Header) {ds : List Datum} (h : PlainStart ds) :
    splitTop false (packageWith path hs ds) = some (packageWith path hs (withoutNotes ds)) := by
  have := extract_header (k := fun body => (split body [] []).map (choose false)) h (split_code ds) hs
  simp only [packageWith, List.cons_append, Datum.list]
  rw [splitTop, extract, this]; rfl

/-- several forms without their notes -/
theorem splitTop_begin (hs : List Header) {ds : List Datum} (h : PlainStart ds) :
    splitTop false (.list (kw "begin" :: hs.map Header.form ++ ds)) =
      some (.list (kw "begin" :: hs.map Header.form ++ withoutNotes ds)) := by
  have := extract_header (k := fun body => (split body [] []).map (choose false)) h (split_code ds) hs
  simp only [List.cons_append, Datum.list]
  rw [splitTop, extract, this]
  · rfl
  all_goals simp

/-! ### programs -/

/-- the names of the forms that the compiler knows -/
def keywords : List Spec.Lang.Sym := ["quote", "lambda", "if", "do", "let"].map .named

theorem symbols_list : ∀ ps : List Spec.Lang.Sym, symbols (.list (ps.map .sym)) = some ps
  | [] => rfl
  | p :: ps => by simp [Datum.list, symbols, symbols_list ps]

theorem formOf_app {f d : Datum} {c : Core} {cs : List Core} (hf : formOf f = some c) (hd : formsOf d = some cs)
    (h : ∀ x ∈ keywords, f ≠ .sym x) : formOf (.cons f d) = some (.app c cs) := by
  have h1 := h (.named "quote") (by simp [keywords])
  have h2 := h (.named "lambda") (by simp [keywords])
  have h3 := h (.named "if") (by simp [keywords])
  have h4 := h (.named "do") (by simp [keywords])
  have h5 := h (.named "let") (by simp [keywords])
  rw [formOf]
  · rw [hf, hd]; rfl
  all_goals first | (intros; simp_all) | skip

mutual
theorem formOf_form : ∀ c : Core, okCore (· ∈ keywords) c → formOf c.form = some c
  | .lit (.int n), _ => by rw [Core.form, Const.datum, formOf]
  | .lit (.bool n), _ => by rw [Core.form, Const.datum, formOf]
  | .lit .nil, _ => by rw [Core.form, Const.datum, formOf]
  | .lit (.str n), _ => by rw [Core.form, Const.datum, formOf]
  | .quote d, _ => by simp only [Core.form, Datum.list]; rw [formOf]
  | .var x, _ => by rw [Core.form, formOf]
  | .lam ps b, h => by
    simp only [Core.form, Datum.list]
    rw [formOf, symbols_list, formOf_form b h]; rfl
  | .ite a b c, h => by
    simp only [Core.form, Datum.list]
    rw [formOf, formOf_form a h.1, formOf_form b h.2.1, formOf_form c h.2.2]; rfl
  | .seq a b, h => by
    simp only [Core.form, Datum.list]
    rw [formOf, formOf_form a h.1, formOf_form b h.2]; rfl
  | .bind x a b, h => by
    simp only [Core.form, Datum.list]
    rw [formOf, formOf_form a h.1, formOf_form b h.2]; rfl
  | .app f args, h => by
    rw [Core.form]
    refine formOf_app (formOf_form f h.2.1) (formsOf_forms args h.2.2) fun x hx e => ?_
    cases f with
    | var y => simp only [Core.form, Datum.sym.injEq] at e; subst e; exact h.1 _ rfl hx
    | lit c => cases c <;> simp [Core.form, Const.datum] at e
    | _ => simp [Core.form, Datum.list] at e
theorem formsOf_forms : ∀ cs : List Core, okCores (· ∈ keywords) cs → formsOf (.list (Core.forms cs)) = some cs
  | [], _ => by rw [Core.forms, Datum.list, formsOf]
  | c :: cs, h => by
    rw [Core.forms, Datum.list, formsOf, formOf_form c h.1, formsOf_forms cs h.2]; rfl
end

/-- names are left alone or get a `#` -/
theorem resolve_name (ex : Exports) (pkg : String) (scope : List String) (locals : List Spec.Lang.Sym) (x : Spec.Lang.Sym) :
    resolve ex pkg scope locals x = x ∨ ∃ p, resolve ex pkg scope locals x = ofPackage p x := by
  unfold resolve
  split
  · exact .inl rfl
  split
  · exact .inl rfl
  unfold resolveGlobal
  split
  · exact .inr ⟨_, rfl⟩
  · unfold own
    split
    · exact .inl rfl
    · exact .inr ⟨_, rfl⟩

theorem ofPackage_keyword (p : String) (x : Spec.Lang.Sym) : ofPackage p x ∉ keywords := by
  intro h
  have : '#' ∈ (ofPackage p x).text.toList := by simp [ofPackage, Sym.text]
  simp only [keywords, List.map_cons, List.map_nil, List.mem_cons, List.not_mem_nil, or_false] at h
  rcases h with h | h | h | h | h <;> rw [h] at this <;> simp [Sym.text] at this

theorem keyword_special (mt : Macros) {x : Spec.Lang.Sym} (h : x ∈ keywords) : special mt x := by
  left
  simp only [keywords, List.map_cons, List.map_nil, List.mem_cons, List.not_mem_nil, or_false] at h ⊢
  grind

variable {mt : Macros}

mutual
theorem ok_resolve (ex : Exports) (pkg : String) : ∀ (c : Core) (scope : List String) (locals : List Spec.Lang.Sym),
    okCore (special mt) c → okCore (· ∈ keywords) (c.resolve ex pkg scope locals)
  | .lit _, _, _, _ => trivial
  | .quote _, _, _, _ => trivial
  | .var _, _, _, _ => trivial
  | .lam ps b, scope, locals, h => ok_resolve ex pkg b scope _ h
  | .ite a b c, scope, locals, h =>
    ⟨ok_resolve ex pkg a scope _ h.1, ok_resolve ex pkg b scope _ h.2.1, ok_resolve ex pkg c scope _ h.2.2⟩
  | .seq a b, scope, locals, h => ⟨ok_resolve ex pkg a _ _ h.1, ok_resolve ex pkg b _ _ h.2⟩
  | .bind x a b, scope, locals, h => ⟨ok_resolve ex pkg a _ _ h.1, ok_resolve ex pkg b _ _ h.2⟩
  | .app f args, scope, locals, h => by
    refine ⟨fun x e hx => ?_, ok_resolve ex pkg f _ _ h.2.1, ok_resolves ex pkg args _ _ h.2.2⟩
    cases f with
    | var y =>
      simp only [Core.resolve, Core.var.injEq] at e
      subst e
      rcases resolve_name ex pkg scope locals y with h1 | ⟨p, h1⟩
      · rw [h1] at hx; exact h.1 y rfl (keyword_special mt hx)
      · rw [h1] at hx; exact ofPackage_keyword p y hx
    | _ => simp [Core.resolve] at e
theorem ok_resolves (ex : Exports) (pkg : String) : ∀ (cs : List Core) (scope : List String) (locals : List Spec.Lang.Sym),
    okCores (special mt) cs → okCores (· ∈ keywords) (Core.resolves ex pkg scope locals cs)
  | [], _, _, _ => trivial
  | c :: cs, scope, locals, h => ⟨ok_resolve ex pkg c _ _ h.1, ok_resolves ex pkg cs _ _ h.2⟩
end

theorem ok_resolveTop (ex : Exports) (pkg : String) (scope : List String) : ∀ t : Top, Top.ok mt t →
    okCore (· ∈ keywords) (t.resolve ex pkg scope)
  | .define x e, h => ⟨by rintro y ⟨⟩; simp [keywords], trivial, trivial, ok_resolve ex pkg e _ _ h, trivial⟩
  | .expr e, h => ok_resolve ex pkg e _ _ h

theorem ok_resolveTops (ex : Exports) (pkg : String) : ∀ (ts : List Top) (t : Top) (scope : List String), Top.ok mt t →
    (∀ x ∈ ts, Top.ok mt x) → okCore (· ∈ keywords) (resolveTops ex pkg scope t ts)
  | [], t, scope, h, _ => ok_resolveTop ex pkg scope t h
  | t' :: ts, t, scope, h, hts => ⟨ok_resolveTop ex pkg scope t h,
      ok_resolveTops ex pkg ts t' _ (hts t' (by simp)) fun x hx => hts x (by simp [hx])⟩

end Cora.Toc
