import Verif.Props.Macro
/-
C44: quasi-quotation builds the template. C59: list notation.
-/
open Spec.Lang
namespace Cora.Macro
variable {mt : Macros} {K : Nat} {W : Type} {E : Ext W} {env : Env}

/-- `(cons a d)` -/
def consC (a d : Core) : Core := .app (.var (.named "cons")) [a, d]

theorem eval_consC (hc : find (.named "cons") env = none) {a d : Core} {w : World W} {v : Val} {w' : World W} :
    Eval E env w (consC a d) v w' ↔
      ∃ x y w1, Eval E env w a x w1 ∧ Eval E env w1 d y w' ∧ v = .cons x y := by
  unfold consC
  rw [eval_prim_exact (p := "cons") (by simp [Core.primOf, hc, primArity]) rfl]
  constructor
  · rintro ⟨vs, w1, h1, h2⟩
    obtain ⟨x, xs, w2, rfl, hx, h1⟩ := evalArgs_cons.1 h1
    obtain ⟨y, ys, w3, rfl, hy, h1⟩ := evalArgs_cons.1 h1
    obtain ⟨rfl, rfl⟩ := evalArgs_nil.1 h1
    simp [primApply] at h2
    obtain ⟨rfl, rfl⟩ := h2
    exact ⟨x, y, w2, hx, hy, rfl⟩
  · rintro ⟨x, y, w1, hx, hy, rfl⟩
    exact ⟨[x, y], w', evalArgs_cons.2 ⟨x, [y], w1, rfl, hx, evalArgs_cons.2 ⟨y, [], w', rfl, hy, evalArgs_nil.2 ⟨rfl, rfl⟩⟩⟩,
      by simp [primApply]⟩

theorem turns_consC (hs : Std mt) {a d : Datum} {ca cd : Core} {k k1 k2 : Nat} (ha : Turns mt a k ca k1)
    (hd : Turns mt d k1 cd k2) : Turns mt (.list [kw "cons", a, d]) k (consC ca cd) k2 :=
  turns_app_sym hs (not_special hs (by simp)) (.cons ha (.cons hd .nil))

theorem old_consC {a d : Core} (ha : Old K a) (hd : Old K d) : Old K (consC a d) := by
  intro n hn hm
  simp only [consC, Core.fv, Core.fvs, List.mem_append, List.mem_singleton, List.append_nil] at hm
  rcases hm with hm | hm | hm
  · cases hm
  · exact ha n hn hm
  · exact hd n hn hm

/-! ### list notation -/

/-- the nested `cons` calls, ending in `tail` -/
def consForm : List Datum → Datum → Datum
  | [], tail => tail
  | e :: es, tail => .list [kw "cons", e, consForm es tail]

theorem rcons_list : ∀ es : List Datum, rcons (.list es) = consForm es .nil
  | [] => rfl
  | e :: es => by simp only [Datum.list, rcons, rcons_list es, consForm]

theorem rcons1_list : ∀ (es : List Datum) (t : Datum), rcons1 (.list (es ++ [t])) = some (consForm es t)
  | [], t => rfl
  | e :: es, t => by
    have h := rcons1_list es t
    have hne : Datum.list (es ++ [t]) ≠ .nil := by cases es <;> simp [Datum.list]
    simp only [List.cons_append, Datum.list]
    rw [rcons1, h]
    · rfl
    · exact hne

theorem consForm_turns (hs : Std mt) (tail : Datum) (ht : Expandable mt K tail) :
    ∀ (es : List Datum) (_ : ∀ e ∈ es, Expandable mt K e) (k : Nat), K ≤ k →
    ∃ c k' cs ct, Turns mt (consForm es tail) k c k' ∧ Old K c ∧ Expansions mt K es cs ∧ IsExpansion mt K tail ct ∧
      ∀ {W : Type} (E : Ext W) env w v w', find (.named "cons") env = none → (Eval E env w c v w' ↔
        ∃ vs u w1, EvalArgs E env w cs vs w1 ∧ Eval E env w1 ct u w' ∧ v = listVal vs u)
  | [], _, k, hk => by
    obtain ⟨c1, k1, t1, o1⟩ := ht k hk
    refine ⟨c1, k1, [], c1, t1, o1, .nil, ⟨k, k1, hk, t1, o1⟩, ?_⟩
    intro W E env w v w' _
    constructor
    · intro h; exact ⟨[], v, w, .nil .., h, rfl⟩
    · rintro ⟨vs, u, w1, h1, h2, rfl⟩
      obtain ⟨rfl, rfl⟩ := evalArgs_nil.1 h1
      exact h2
  | e :: es, hes, k, hk => by
    obtain ⟨c1, k1, t1, o1⟩ := hes e (by simp) k hk
    obtain ⟨c2, k2, cs, ct, t2, o2, x2, xt, ev⟩ := consForm_turns hs tail ht es (fun x hx => hes x (by simp [hx])) k1
      (Nat.le_trans hk t1.le)
    refine ⟨consC c1 c2, k2, c1 :: cs, ct, turns_consC hs t1 t2, old_consC o1 o2, .cons ⟨k, k1, hk, t1, o1⟩ x2, xt, ?_⟩
    intro W E env w v w' hc
    rw [eval_consC hc]
    constructor
    · rintro ⟨x, y, w1, h1, h2, rfl⟩
      obtain ⟨vs, u, w2, h3, h4, rfl⟩ := (ev E _ _ _ _ hc).1 h2
      exact ⟨x :: vs, u, w2, .cons _ _ _ _ _ _ _ _ h1 h3, h4, rfl⟩
    · rintro ⟨vs, u, w1, h1, h2, rfl⟩
      obtain ⟨x, xs, w2, rfl, h3, h4⟩ := evalArgs_cons.1 h1
      exact ⟨x, _, w2, h3, (ev E _ _ _ _ hc).2 ⟨xs, u, w1, h4, h2, rfl⟩, rfl⟩

theorem nil_expandable (K : Nat) : Expandable mt K .nil := fun k _ => ⟨_, k, turns_lit .nil k, old_lit _⟩

/-- `(list e1 … en)`, which `[e1 … en]` stands for -/
theorem C59_list (hs : Std mt) (es : List Datum) (hes : ∀ e ∈ es, Expandable mt K e) (k : Nat) (hk : K ≤ k) :
    ∃ c k' cs, Turns mt (.cons (kw "list") (.list es)) k c k' ∧ Old K c ∧ Expansions mt K es cs ∧
      ∀ {W : Type} (E : Ext W) env w v w', find (.named "cons") env = none → (Eval E env w c v w' ↔
        ∃ vs, EvalArgs E env w cs vs w' ∧ v = listVal vs .nil) := by
  obtain ⟨c, k', cs, ct, t, o, x, xt, ev⟩ := consForm_turns hs .nil (nil_expandable K) es hes k hk
  refine ⟨c, k', cs, turns_std hs (by decide) (by decide) rfl (g := fun e => (cdr e).map rcons) (by simp [cdr, rcons_list])
    (by cases es <;> simp [consForm, Datum.list]) t, o, x, ?_⟩
  intro W E env w v w' hc
  rw [ev E env w v w' hc]
  have hct : ct = .lit .nil := by
    obtain ⟨k1, k2, _, t1, _⟩ := xt
    obtain ⟨N1, h1⟩ := t1.run
    obtain ⟨N2, h2⟩ := (turns_lit (mt := mt) .nil k1).run
    have h1 := h1 (N1 + N2) (by omega)
    have h2 := h2 (N1 + N2) (by omega)
    simp only [Const.datum] at h2
    rw [h1] at h2
    injection h2 with h2
    have h2 : ct.form = .nil := by simpa [Core.form, Const.datum] using congrArg Prod.fst h2
    cases ct with
    | lit c => cases c <;> simp [Core.form, Const.datum] at h2 ⊢
    | _ => simp [Core.form, Datum.list] at h2
  subst hct
  constructor
  · rintro ⟨vs, u, w1, h1, h2, rfl⟩
    obtain ⟨rfl, rfl⟩ := eval_lit.1 h2
    exact ⟨vs, h1, rfl⟩
  · rintro ⟨vs, h1, rfl⟩
    exact ⟨vs, .nil, w', h1, eval_lit.2 ⟨rfl, rfl⟩, rfl⟩

/-- `(list-rest e1 … en tail)`, which `[e1 … en . tail]` stands for -/
theorem C59_list_rest (hs : Std mt) (es : List Datum) (tail : Datum) (hes : ∀ e ∈ es, Expandable mt K e)
    (ht : Expandable mt K tail) (k : Nat) (hk : K ≤ k) :
    ∃ c k' cs ct, Turns mt (.cons (kw "list-rest") (.list (es ++ [tail]))) k c k' ∧ Old K c ∧ Expansions mt K es cs ∧
      IsExpansion mt K tail ct ∧
      ∀ {W : Type} (E : Ext W) env w v w', find (.named "cons") env = none → (Eval E env w c v w' ↔
        ∃ vs u w1, EvalArgs E env w cs vs w1 ∧ Eval E env w1 ct u w' ∧ v = listVal vs u) := by
  obtain ⟨c, k', cs, ct, t, o, x, xt, ev⟩ := consForm_turns hs tail ht es hes k hk
  refine ⟨c, k', cs, ct, turns_std hs (by decide) (by decide) rfl (g := fun e => (cdr e).bind rcons1)
    (by simp [cdr, rcons1_list]) ?_ t, o, x, xt, ev⟩
  cases es with
  | nil =>
    simp only [consForm, List.nil_append, Datum.list]
    intro h
    have := congrArg sizeOf h
    simp at this
    omega
  | cons => simp [consForm, Datum.list]

/-! ### quasi-quotation -/

mutual
/-- a template with the expansions of its holes -/
inductive TmplExpansion (mt : Macros) (K : Nat) : Tmpl Datum → Tmpl Core → Prop where
  | atom (d) : TmplExpansion mt K (.atom d) (.atom d)
  | hole {e c} : IsExpansion mt K e c → TmplExpansion mt K (.hole e) (.hole c)
  | list {t c ts cs} : TmplExpansion mt K t c → TmplExpansions mt K ts cs → TmplExpansion mt K (.list t ts) (.list c cs)
inductive TmplExpansions (mt : Macros) (K : Nat) : List (Tmpl Datum) → List (Tmpl Core) → Prop where
  | nil : TmplExpansions mt K [] []
  | cons {t c ts cs} : TmplExpansion mt K t c → TmplExpansions mt K ts cs → TmplExpansions mt K (t :: ts) (c :: cs)
end

mutual
/-- the expressions in the holes -/
def holes : Tmpl Datum → List Datum
  | .atom _ => []
  | .hole e => [e]
  | .list t ts => holes t ++ holess ts
def holess : List (Tmpl Datum) → List Datum
  | [] => []
  | t :: ts => holes t ++ holess ts
end

theorem backquotes_list : ∀ ts : List (Tmpl Datum), rewriteBackquotes (.list (Tmpl.forms ts)) =
    .list ((Tmpl.forms ts).map rewriteBackquote)
  | [] => by simp [Tmpl.forms, Datum.list, rewriteBackquotes]
  | t :: ts => by
    have h := backquotes_list ts
    simp only [Tmpl.forms, Datum.list, rewriteBackquotes, h, List.map_cons]

theorem form_list_ne {t : Tmpl Datum} {ts : List (Tmpl Datum)} (h : (Tmpl.list t ts).ok) (x : Datum) :
    (Tmpl.list t ts).form ≠ .cons (kw "unquote") (.cons x .nil) := by
  intro he
  simp only [Tmpl.form, Datum.cons.injEq] at he
  obtain ⟨h1, h2⟩ := he
  have hl : ts.length = 1 := by
    cases ts with
    | nil => simp [Tmpl.forms, Datum.list] at h2
    | cons a r =>
      cases r with
      | nil => rfl
      | cons b r => simp [Tmpl.forms, Datum.list] at h2
  refine h.2.2 ⟨?_, hl⟩
  cases t with
  | atom d => simp only [Tmpl.form] at h1; rw [h1]
  | hole e => simp [Tmpl.form, Datum.list] at h1
  | list a r => simp [Tmpl.form] at h1

theorem rewrite_list {t : Tmpl Datum} {ts : List (Tmpl Datum)} (h : (Tmpl.list t ts).ok) :
    rewriteBackquote (Tmpl.list t ts).form =
      .cons (kw "list") (.list ((Tmpl.forms (t :: ts)).map rewriteBackquote)) := by
  have hne := form_list_ne h
  simp only [Tmpl.form] at hne ⊢
  rw [rewriteBackquote]
  · rw [backquotes_list]; rfl
  · intro x e1 e2; exact hne x (by rw [e1, e2])

theorem eval_atom {d : Datum} (hd : ∀ a b, d ≠ .cons a b) (hs : Std mt) (k : Nat) :
    ∃ c, Turns mt (rewriteBackquote d) k c k ∧ Old K c ∧
      ∀ {W : Type} (E : Ext W) env w v w', Eval E env w c v w' ↔ v = d.val ∧ w' = w := by
  cases d with
  | cons a b => exact absurd rfl (hd a b)
  | sym x =>
    exact ⟨.quote (.sym x), turns_quote hs (.sym x) k, by intro n _ h; simp [Core.fv] at h, fun _ _ _ _ _ => eval_quote⟩
  | int n => exact ⟨.lit (.int n), by simpa [rewriteBackquote, Const.datum] using turns_lit (mt := mt) (.int n) k, old_lit _, fun _ _ _ _ _ => eval_lit⟩
  | bool n => exact ⟨.lit (.bool n), by simpa [rewriteBackquote, Const.datum] using turns_lit (mt := mt) (.bool n) k, old_lit _, fun _ _ _ _ _ => eval_lit⟩
  | nil => exact ⟨.lit .nil, by simpa [rewriteBackquote, Const.datum] using turns_lit (mt := mt) .nil k, old_lit _, fun _ _ _ _ _ => eval_lit⟩
  | str n => exact ⟨.lit (.str n), by simpa [rewriteBackquote, Const.datum] using turns_lit (mt := mt) (.str n) k, old_lit _, fun _ _ _ _ _ => eval_lit⟩

mutual
theorem tmpl_turns (hs : Std mt) : ∀ (t : Tmpl Datum) (_ : t.ok) (_ : ∀ e ∈ holes t, Expandable mt K e) (k : Nat), K ≤ k →
    ∃ c k' tc, Turns mt (rewriteBackquote t.form) k c k' ∧ Old K c ∧ TmplExpansion mt K t tc ∧
      ∀ {W : Type} (E : Ext W) env w v w', find (.named "cons") env = none →
        (Eval E env w c v w' ↔ EvalTmpl E env w tc v w')
  | .atom d, hok, _, k, _ => by
    obtain ⟨c, t, o, ev⟩ := eval_atom (K := K) hok hs k
    refine ⟨c, k, .atom d, t, o, .atom d, ?_⟩
    intro W E env w v w' _
    rw [ev]
    constructor
    · rintro ⟨rfl, rfl⟩; exact .atom ..
    · intro h; cases h; exact ⟨rfl, rfl⟩
  | .hole e, _, hh, k, hk => by
    obtain ⟨c, k1, t, o⟩ := hh e (by simp [holes]) k hk
    refine ⟨c, k1, .hole c, by simpa [Tmpl.form, Datum.list, rewriteBackquote] using t, o, .hole ⟨k, k1, hk, t, o⟩, ?_⟩
    intro W E env w v w' _
    constructor
    · exact .hole _ _ _ _
    · intro h; cases h with
      | hole _ _ _ _ h => exact h
  | .list t ts, hok, hh, k, hk => by
    obtain ⟨c1, k1, tc, t1, o1, x1, ev1⟩ := tmpl_turns hs t hok.1 (fun e he => hh e (by simp [holes, he])) k hk
    obtain ⟨c2, k2, tcs, t2, o2, x2, ev2⟩ := tmpls_turns hs ts hok.2.1 (fun e he => hh e (by simp [holes, he])) k1
      (Nat.le_trans hk t1.le)
    refine ⟨consC c1 c2, k2, .list tc tcs, ?_, old_consC o1 o2, .list x1 x2, ?_⟩
    · rw [rewrite_list hok]
      refine turns_std hs (by decide) (by decide) rfl (g := fun e => (cdr e).map rcons) (by simp [cdr, rcons_list]; rfl)
        (by simp [consForm, Datum.list, Tmpl.forms]) ?_
      simp only [Tmpl.forms, List.map_cons, consForm]
      exact turns_consC hs t1 t2
    · intro W E env w v w' hc
      rw [eval_consC hc]
      constructor
      · rintro ⟨x, y, w1, h1, h2, rfl⟩
        obtain ⟨vs, h3, rfl⟩ := (ev2 E _ _ _ _ hc).1 h2
        exact .list _ _ _ _ _ _ _ ((ev1 E _ _ _ _ hc).1 h1) h3
      · intro h
        cases h with
        | list _ _ _ v vs w1 _ h1 h2 =>
          exact ⟨v, _, w1, (ev1 E _ _ _ _ hc).2 h1, (ev2 E _ _ _ _ hc).2 ⟨vs, h2, rfl⟩, rfl⟩
theorem tmpls_turns (hs : Std mt) : ∀ (ts : List (Tmpl Datum)) (_ : Tmpl.oks ts) (_ : ∀ e ∈ holess ts, Expandable mt K e)
    (k : Nat), K ≤ k →
    ∃ c k' tcs, Turns mt (consForm ((Tmpl.forms ts).map rewriteBackquote) .nil) k c k' ∧ Old K c ∧ TmplExpansions mt K ts tcs ∧
      ∀ {W : Type} (E : Ext W) env w v w', find (.named "cons") env = none →
        (Eval E env w c v w' ↔ ∃ vs, EvalTmpls E env w tcs vs w' ∧ v = listVal vs .nil)
  | [], _, _, k, _ => by
    refine ⟨.lit .nil, k, [], turns_lit .nil k, old_lit _, .nil, ?_⟩
    intro W E env w v w' _
    rw [eval_lit]
    constructor
    · rintro ⟨rfl, rfl⟩; exact ⟨[], .nil _, rfl⟩
    · rintro ⟨vs, h, rfl⟩; cases h; exact ⟨rfl, rfl⟩
  | t :: ts, hok, hh, k, hk => by
    obtain ⟨c1, k1, tc, t1, o1, x1, ev1⟩ := tmpl_turns hs t hok.1 (fun e he => hh e (by simp [holess, he])) k hk
    obtain ⟨c2, k2, tcs, t2, o2, x2, ev2⟩ := tmpls_turns hs ts hok.2 (fun e he => hh e (by simp [holess, he])) k1
      (Nat.le_trans hk t1.le)
    refine ⟨consC c1 c2, k2, tc :: tcs, turns_consC hs t1 t2, old_consC o1 o2, .cons x1 x2, ?_⟩
    intro W E env w v w' hc
    rw [eval_consC hc]
    constructor
    · rintro ⟨x, y, w1, h1, h2, rfl⟩
      obtain ⟨vs, h3, rfl⟩ := (ev2 E _ _ _ _ hc).1 h2
      exact ⟨x :: vs, .cons _ _ _ _ _ _ _ ((ev1 E _ _ _ _ hc).1 h1) h3, rfl⟩
    · rintro ⟨vs, h, rfl⟩
      cases h with
      | cons _ _ _ v vs w1 _ h1 h2 =>
        exact ⟨v, _, w1, (ev1 E _ _ _ _ hc).2 h1, (ev2 E _ _ _ _ hc).2 ⟨vs, h2, rfl⟩, rfl⟩
end

/-- evaluating `` `t `` fills the template `t`. Templates are atoms, holes and proper lists, nested in any way; for
dotted templates the claim is false (`C44_dotted_tail_lost`). -/
theorem C44_quasi_partial (hs : Std mt) (t : Tmpl Datum) (hok : t.ok) (hh : ∀ e ∈ holes t, Expandable mt K e) (k : Nat)
    (hk : K ≤ k) :
    ∃ c k' tc, Turns mt (.list [kw "backquote", t.form]) k c k' ∧ Old K c ∧ TmplExpansion mt K t tc ∧
      ∀ {W : Type} (E : Ext W) env w v w', find (.named "cons") env = none →
        (Eval E env w c v w' ↔ EvalTmpl E env w tc v w') := by
  obtain ⟨c, k', tc, tt, o, x, ev⟩ := tmpl_turns hs t hok hh k hk
  refine ⟨c, k', tc, turns_std hs (by decide) (by decide) rfl (g := fun e => (cadr e).map rewriteBackquote)
    (e1 := rewriteBackquote t.form) (by simp [cadr, cdr, car, Datum.list]) ?_ tt, o, x, ev⟩
  cases t with
  | atom d =>
    cases d with
    | cons a b => exact absurd rfl (hok a b)
    | _ => simp [Tmpl.form, rewriteBackquote, Datum.list]
  | hole e =>
    simp only [Tmpl.form, Datum.list, rewriteBackquote]
    intro h
    have := congrArg sizeOf h
    simp at this
    omega
  | list t ts => rw [rewrite_list hok]; simp

/-- a dotted template: `` `(a . 1) `` gives `(a)`, not `(a . 1)` -/
theorem C44_dotted_tail_lost (hs : Std mt) (k : Nat) :
    ∃ c, Turns mt (.list [kw "backquote", .cons (kw "a") (.int 1)]) k c k ∧
      Eval noExt [] noWorld c (.cons (.sym (.named "a")) .nil) noWorld := by
  refine ⟨consC (.quote (kw "a")) (.lit .nil), turns_std hs (by decide) (by decide) rfl
    (g := fun e => (cadr e).map rewriteBackquote) (e1 := .list [kw "list", .list [kw "quote", kw "a"]])
    (by simp [cadr, cdr, car, rewriteBackquote, rewriteBackquotes, Datum.list, Datum.list])
    (by simp [Datum.list]) ?_, evalF_sound 4 rfl⟩
  exact turns_std hs (by decide) (by decide) rfl (g := fun e => (cdr e).map rcons)
    (e1 := .list [kw "cons", .list [kw "quote", kw "a"], .nil]) rfl (by simp [Datum.list])
    (turns_consC hs (turns_quote hs _ k) (turns_lit .nil k))

/-- `` `(a (b ,x) "s" ,(set 'g 1)) `` -/
def tmplExample : Tmpl Datum :=
  .list (.atom (kw "a")) [.list (.atom (kw "b")) [.hole (kw "x")], .atom (.str "s"), .hole setG.form]

example := C44_quasi_partial (K := 1) initMacros_std tmplExample
  (by simp [tmplExample, Tmpl.ok, Tmpl.oks])
  (by simp [tmplExample, holes, holess]; exact ⟨x_expandable 1, setG_expandable 1⟩) 1 (Nat.le_refl 1)
/-- filling it gives `(a (b 7) "s" 1)` when `x` is 7 -/
example : EvalTmpl noExt [(.named "x", .int 7)] noWorld
    (.list (.atom (kw "a")) [.list (.atom (kw "b")) [.hole (.var (.named "x"))], .atom (.str "s"), .hole setG])
    (listVal [.sym (.named "a"), listVal [.sym (.named "b"), .int 7] .nil, .str "s", .int 1] .nil)
    (noWorld.set (.named "g") (.int 1)) :=
  .list _ _ _ _ _ _ _ (.atom ..) (.cons _ _ _ _ _ _ _ (.list _ _ _ _ _ _ _ (.atom ..)
    (.cons _ _ _ _ _ _ _ (.hole _ _ _ _ (.local _ _ _ _ rfl)) (.nil _)))
    (.cons _ _ _ _ _ _ _ (.atom ..) (.cons _ _ _ _ _ _ _ (.hole _ _ _ _ (evalF_sound 4 rfl)) (.nil _))))

example := C59_list (K := 1) initMacros_std [kw "x", setG.form]
  (by simp; exact ⟨x_expandable 1, setG_expandable 1⟩) 1 (Nat.le_refl 1)
example := C59_list_rest (K := 1) initMacros_std [setG.form, kw "x"] (kw "x")
  (by simp; exact ⟨setG_expandable 1, x_expandable 1⟩) (x_expandable 1) 1 (Nat.le_refl 1)

end Cora.Macro
