import Verif.Props.Match
/-
C60: functions defined by rules.
-/
open Spec.Lang
namespace Cora.Macro
variable {mt : Macros} {K : Nat} {W : Type} {E : Ext W} {env : Env}

/-- a rule as written: patterns, action, guard -/
structure Rule where
  written : List Datum
  pats : List Pat
  guard : Option Datum
  act : Datum

/-- a list of patterns as one pattern for a list of that length -/
def listPat : List Pat → Pat
  | [] => .lit .nil
  | p :: ps => .cons p (listPat ps)

/-- how rules are written: `p1 … pn => action` or `p1 … pn => action where guard` -/
def ruleForms : List Rule → List Datum
  | [] => []
  | r :: rs => r.written ++ kw "=>" :: r.act :: ((match r.guard with | none => [] | some g => [kw "where", g]) ++ ruleForms rs)

/-- the clause of `match` that a rule stands for -/
def Rule.src (r : Rule) : Src where
  written := .cons (kw "list") (.list r.written)
  pat := listPat r.pats
  guard := r.guard
  act := r.act

/-- the patterns of a rule -/
inductive PatsSyntax : List Datum → List Pat → Prop where
  | nil : PatsSyntax [] []
  | cons {d p ds ps} : PatSyntax d p → PatsSyntax ds ps → PatsSyntax (d :: ds) (p :: ps)

/-- what is expected of a rule: `n` patterns, none of them the variable `=>` or `where`, with variables that are neither
generated later than `K` nor named like the primitives that `match` uses; guard and action can be expanded -/
structure RuleOk (mt : Macros) (K n : Nat) (r : Rule) : Prop where
  pats : PatsSyntax r.written r.pats
  count : r.pats.length = n
  arrow : ∀ d ∈ r.written, d ≠ kw "=>" ∧ d ≠ kw "where"
  guard : ∀ g, r.guard = some g → Expandable mt K g
  act : Expandable mt K r.act
  nowhere : r.guard = none → ∀ x, r.act ≠ .cons (kw "where") x
  prims : ∀ p ∈ r.pats, ∀ x ∈ p.vars, x ∉ ["=", "cons", "cons?", "car", "cdr"].map Sym.named
  old : ∀ p ∈ r.pats, ∀ n, K ≤ n → Sym.gen n ∉ p.vars

theorem listPat_vars {x : Sym} : ∀ {ps : List Pat}, x ∈ (listPat ps).vars → ∃ p ∈ ps, x ∈ p.vars
  | [], h => by simp [listPat, Pat.vars] at h
  | p :: ps, h => by
    simp only [listPat, Pat.vars, List.mem_append] at h
    rcases h with h | h
    · exact ⟨p, by simp, h⟩
    · obtain ⟨q, hq, hx⟩ := listPat_vars h
      exact ⟨q, by simp [hq], hx⟩

theorem patsSyntax {ds : List Datum} {ps : List Pat} (h : PatsSyntax ds ps) :
    PatSyntax (.cons (kw "list") (.list ds)) (listPat ps) := by
  induction h with
  | nil => exact .list0
  | cons h1 _ ih => exact .list h1 ih

theorem RuleOk.src {n : Nat} {r : Rule} (h : RuleOk mt K n r) : SrcOk mt K r.src where
  pat := patsSyntax h.pats
  guard := h.guard
  act := h.act
  nowhere := h.nowhere
  prims := fun x hx => by
    obtain ⟨p, hp, hx⟩ := listPat_vars hx
    exact h.prims p hp x hx
  old := fun n hn hx => by
    obtain ⟨p, hp, hx⟩ := listPat_vars hx
    exact h.old p hp n hn hx

/-! ### parsing the rules -/

theorem list_append (a b : List Datum) : Datum.list (a ++ b) = a.foldr .cons (.list b) := by
  induction a with
  | nil => rfl
  | cons x r ih => simp [Datum.list, ih]

theorem reverseH_list : ∀ (ds : List Datum) (acc : List Datum), reverseH (.list acc) (.list ds) = .list (ds.reverse ++ acc)
  | [], acc => by simp [Datum.list, reverseH]
  | d :: ds, acc => by
    have := reverseH_list ds (d :: acc)
    simp only [Datum.list] at this ⊢
    rw [reverseH, this]
    simp

theorem reverse_list (ds : List Datum) : reverse (.list ds) = .list ds.reverse := by
  have := reverseH_list ds []
  simpa [reverse, Datum.list] using this

/-- patterns are collected -/
theorem extract_pats : ∀ (ds : List Datum) (_ : ∀ d ∈ ds, d ≠ kw "=>") (rest : List Datum) (cur : List Datum) (res : Datum),
    extractRules1 (.list (ds ++ rest)) (.list cur) res = extractRules1 (.list rest) (.list (ds.reverse ++ cur)) res
  | [], _, rest, cur, res => by simp
  | d :: ds, h, rest, cur, res => by
    have hd := h d (by simp)
    simp only [List.cons_append, Datum.list]
    rw [extractRules1]
    · have := extract_pats ds (fun x hx => h x (by simp [hx])) rest (d :: cur) res
      simp only [Datum.list] at this
      rw [this]
      simp
    · intro a b c e _; exact hd e
    · intro a b e _; exact hd e

theorem extract_rules_rest {extra : List Datum} (he : ∀ d ∈ extra, d ≠ kw "=>" ∧ d ≠ kw "where") :
    ∀ (rs : List Rule) (_ : ∀ r ∈ rs, ∀ d ∈ r.written, d ≠ kw "=>" ∧ d ≠ kw "where") (res : List Datum),
    extractRules1 (.list (ruleForms rs ++ extra)) .nil (.list res) = some (.list (res.reverse ++ srcForms (rs.map Rule.src)))
  | [], _, res => by
    have := extract_pats extra (fun d hd => (he d hd).1) [] [] (.list res)
    simp only [List.append_nil, Datum.list] at this
    simp only [ruleForms, List.nil_append, this]
    simp [extractRules1, reverse_list, srcForms]
  | r :: rs, h, res => by
    have hr := h r (by simp)
    have ih := extract_rules_rest he rs (fun x hx => h x (by simp [hx]))
    simp only [ruleForms]
    have := extract_pats r.written (fun d hd => (hr d hd).1)
      (kw "=>" :: r.act :: ((match r.guard with | none => [] | some g => [kw "where", g]) ++ ruleForms rs ++ extra)) [] (.list res)
    simp only [Datum.list, List.append_assoc, List.cons_append] at this ⊢
    rw [this]
    have hcur : reverse (.list (r.written.reverse ++ [])) = .list r.written := by rw [reverse_list]; simp
    cases hg : r.guard with
    | some g =>
      have ih := ih (.list [kw "where", g, r.act] :: .cons (kw "list") (.list r.written) :: res)
      simp only [List.cons_append, List.nil_append, Datum.list] at ih ⊢
      rw [extractRules1, hcur]
      simp only [Datum.list]
      rw [ih]
      simp [srcForms, Rule.src, Src.action, hg, Datum.list]
    | none =>
      have ih := ih (r.act :: .cons (kw "list") (.list r.written) :: res)
      simp only [List.nil_append, Datum.list] at ih ⊢
      rw [extractRules1, hcur, ih]
      · simp [srcForms, Rule.src, Src.action, hg]
      · intro p rem hc
        cases rs with
        | nil =>
          cases extra with
          | nil => simp [ruleForms, Datum.list] at hc
          | cons d ds =>
            simp only [ruleForms, List.nil_append, Datum.list] at hc
            injection hc with hc _
            exact (he d (by simp)).2 hc
        | cons q qs =>
          have hq := h q (by simp)
          simp only [ruleForms] at hc
          cases hw : q.written with
          | nil => simp [hw, Datum.list] at hc
          | cons d ds =>
            simp only [hw, List.cons_append, Datum.list] at hc
            injection hc with hc _
            exact (hq d (by simp [hw])).2 hc

theorem extract_rules {n : Nat} (rs : List Rule) (h : ∀ r ∈ rs, RuleOk mt K n r) (res : List Datum) :
    extractRules1 (.list (ruleForms rs)) .nil (.list res) = some (.list (res.reverse ++ srcForms (rs.map Rule.src))) := by
  have := extract_rules_rest (extra := []) (by simp) rs (fun r hr => (h r hr).arrow) res
  simpa using this

theorem length_list : ∀ ds : List Datum, length (.list ds) = some ds.length
  | [] => rfl
  | d :: ds => by simp [Datum.list, length, length_list ds]

theorem pats_length {ds : List Datum} {ps : List Pat} (h : PatsSyntax ds ps) : ds.length = ps.length := by
  induction h with
  | nil => rfl
  | cons _ _ ih => simp [ih]

theorem argCount {n : Nat} : ∀ (rs : List Rule) (_ : rs ≠ []) (_ : ∀ r ∈ rs, RuleOk mt K n r),
    rulesArgCount (.list (srcForms (rs.map Rule.src))) = some n
  | [r], _, h => by
    have hr := h r (by simp)
    simp [srcForms, Rule.src, Datum.list, rulesArgCount, cdr, length_list, pats_length hr.pats, hr.count]
  | r :: q :: rs, _, h => by
    have hr := h r (by simp)
    have ih := argCount (q :: rs) (by simp) (fun x hx => h x (by simp [hx]))
    simp only [List.map_cons, srcForms, Datum.list] at ih ⊢
    rw [rulesArgCount]
    · simp [Rule.src, cdr, length_list, pats_length hr.pats, hr.count] at ih ⊢
      rw [ih]
      simp
    · simp

/-- the generated parameters -/
def params (k : Nat) : Nat → List Sym
  | 0 => []
  | n + 1 => .gen k :: params (k + 1) n

theorem genParameters_eq : ∀ (n k : Nat), genParameters n k = some (.list ((params k n).map .sym), k + n)
  | 0, k => rfl
  | n + 1, k => by
    simp [genParameters, bind, StateT.bind, gensym, genParameters_eq n (k + 1), pure, StateT.pure, params, Datum.list]
    omega

theorem params_mem : ∀ {n k : Nat} {x : Sym}, x ∈ params k n → ∃ j, k ≤ j ∧ j < k + n ∧ x = .gen j
  | 0, k, x, h => by simp [params] at h
  | n + 1, k, x, h => by
    simp only [params, List.mem_cons] at h
    rcases h with rfl | h
    · exact ⟨k, by omega, by omega, rfl⟩
    · obtain ⟨j, h1, h2, h3⟩ := params_mem h
      exact ⟨j, by omega, by omega, h3⟩

theorem params_length : ∀ n k : Nat, (params k n).length = n
  | 0, _ => rfl
  | n + 1, k => by simp [params, params_length n (k + 1)]

/-- the list of the given variables -/
def listC : List Sym → Core
  | [] => .lit .nil
  | x :: xs => consC (.var x) (listC xs)

theorem listC_direct : ∀ xs : List Sym, Direct (listC xs)
  | [] => .lit _
  | x :: xs => .cons (.var x) (listC_direct xs)

theorem listC_fv {x : Sym} : ∀ {xs : List Sym}, x ∈ (listC xs).fv → x = .named "cons" ∨ x ∈ xs
  | [], h => by simp [listC, Core.fv] at h
  | y :: xs, h => by
    simp [listC, consC, Core.fv, Core.fvs] at h
    rcases h with h | h | h
    · exact .inl h
    · exact .inr (by simp [h])
    · rcases listC_fv h with h | h
      · exact .inl h
      · exact .inr (by simp [h])

theorem listC_turns (hs : Std mt) (xs : List Sym) (k : Nat) :
    Turns mt (.cons (kw "list") (.list (xs.map .sym))) k (listC xs) k := by
  have h : ∀ xs : List Sym, rcons (.list (xs.map .sym)) = (listC xs).form := by
    intro xs
    induction xs with
    | nil => rfl
    | cons x r ih => simp [Datum.list, rcons, ih, listC, consC, Core.form, Core.forms]
  refine turns_std hs (by decide) (by decide) rfl (g := fun e => (cdr e).map rcons) (by simp [cdr, h]) ?_
    (turns_self hs (listC xs) k ((listC_direct xs).pathy.ok hs))
  rw [← h]
  exact rcons_ne _ "list" (by decide)

theorem listC_settled {w : World W} : ∀ (n k : Nat) (args : List Val) (env : Env), args.length = n →
    Settled (((params k n).zip args).reverse ++ env) w false (listC (params k n)) (listVal args .nil)
  | 0, k, args, env, h => by
    have : args = [] := List.eq_nil_of_length_eq_zero h
    subst this
    exact .lit .nil
  | n + 1, k, a :: args, env, h => by
    have ih := listC_settled (w := w) n (k + 1) args ((.gen k, a) :: env) (by simpa using h)
    simp only [params, List.zip_cons_cons, List.reverse_cons, List.append_assoc, List.cons_append, List.nil_append, listC,
      listVal]
    refine .cons (.local ?_) ih
    rw [find_ext]
    · simp [find]
    · intro b hb e
      obtain ⟨j, h1, _, h3⟩ := params_mem (List.of_mem_zip (List.mem_reverse.1 hb)).1
      rw [e] at h3
      cases h3
      omega

theorem evalClauses_ext {v : Val} {ds : List Clause} (ho : ∀ d ∈ ds, Old K d.act ∧ ∀ g, d.guard = some g → Old K g) :
    ∀ (ext : Env) (_ : ∀ p ∈ ext, ∃ n, K ≤ n ∧ p.1 = .gen n) {w w' : World W} {r : Val},
    EvalClauses E (ext ++ env) v w ds r w' ↔ EvalClauses E env v w ds r w'
  | [], _, w, w', r => by simp
  | (x, u) :: ext, h, w, w', r => by
    obtain ⟨n, hn, hx⟩ := h (x, u) (by simp)
    simp only at hx
    subst hx
    rw [List.cons_append, evalClauses_old hn ho, evalClauses_ext ho ext fun p hp => h p (by simp [hp])]

/-- `(func name p11 … p1n => a1 p21 … p2n => a2 …)` defines `name` as a function of `n` arguments. Applied to `n`
arguments it runs the action of the first rule whose patterns match them and whose guard holds. The primitives `=`,
`cons`, `cons?`, `car`, `cdr` must not be bound locally where the function is defined. -/
theorem C60_func (hs : Std mt) (hK : 1 ≤ K) (name : Sym) (n : Nat) (rules : List Rule) (hne : rules ≠ [])
    (hr : ∀ r ∈ rules, RuleOk mt K n r) (k : Nat) (hk : K ≤ k) :
    ∃ ps C k' ds, Runs mt (.cons (kw "func") (.cons (.sym name) (.list (ruleForms rules)))) k
        (.list [kw "def", .sym name, (Core.lam ps C).form]) k' ∧
      ps.length = n ∧ SrcExpansions mt K (rules.map Rule.src) ds ∧
      ∀ {W : Type} (E : Ext W) env w args r w', Unshadowed env → args.length = n →
        (Apply E w (.clo ps C (capture (Core.lam ps C).fv env)) args r w' ↔
          EvalClauses E env (listVal args .nil) w ds r w') := by
  have hok : ∀ c ∈ rules.map Rule.src, SrcOk mt K c := by
    intro c hc
    obtain ⟨r, hm, rfl⟩ := List.mem_map.1 hc
    exact (hr r hm).src
  have hvars : ∀ c ∈ rules.map Rule.src, ∀ x ∈ c.pat.vars, x ∉ (listC (params k n)).fv := by
    intro c hc x hx hm
    rcases listC_fv hm with rfl | hm
    · exact (hok c hc).prims _ hx (by simp)
    · obtain ⟨j, h1, _, rfl⟩ := params_mem hm
      exact (hok c hc).old j (by omega) hx
  obtain ⟨C, k', ds, t, f, x, ev⟩ := match_settled hs hK (.cons (kw "list") (.list ((params k n).map .sym))) (listC (params k n))
    (listC_direct _) (k + n) (listC_turns hs _ _)
    (by intro j hj hm
        rcases listC_fv hm with h | h
        · cases h
        · obtain ⟨j', _, h2, h3⟩ := params_mem h
          cases h3; omega)
    (rules.map Rule.src) hok hvars (by omega)
  refine ⟨params k n, C, k', ds, ?_, params_length n k, x, ?_⟩
  · have hbody : extractRules (.list (ruleForms rules)) = some (.list (srcForms (rules.map Rule.src))) := by
      have := extract_rules rules hr []
      simpa [extractRules, Datum.list] using this
    refine runs_macro (e1 := .list [kw "defun", .sym name, .list ((params k n).map .sym),
        .cons (kw "match") (.cons (.cons (kw "list") (.list ((params k n).map .sym))) (.list (srcForms (rules.map Rule.src))))])
      (k1 := k + n) (hs.plain (by decide) (by decide)) (hs.std "func" _ rfl) ⟨0, fun m _ => ?_⟩ (by simp [Datum.list, kw]) ?_
    · simp only [funcMacro, cddr, cdr, Option.bind_some, hbody, bind, StateT.bind, liftM, monadLift, MonadLift.monadLift,
        StateT.lift, pure, StateT.pure, argCount rules hne hr, genParameters_eq, cadr, car]
    · refine runs_std hs (s := "defun") (by decide) (by decide) rfl (g := defunMacro)
        (e1 := .list [kw "def", .sym name, .list [kw "lambda", .list ((params k n).map .sym),
          .cons (kw "match") (.cons (.cons (kw "list") (.list ((params k n).map .sym))) (.list (srcForms (rules.map Rule.src))))]])
        (by simp [defunMacro, cadr, caddr, cadddr, cddr, cdddr, cdr, car, Datum.list]) (by simp [Datum.list, kw]) ?_
      exact runs_list (hs.plain (by decide) (by decide)) (by intro y hy; cases hy; exact hs.core _ (by simp))
        (.cons runs_sym (.cons runs_sym (.cons (turns_lam hs t).run .nil)))
  · intro W E env w args r w' hu hlen
    rw [apply_clo_exact (by rw [hlen, params_length])]
    have hsame : Eval E (((params k n).zip args).reverse ++ capture (Core.lam (params k n) C).fv env) w C r w' ↔
        Eval E (((params k n).zip args).reverse ++ env) w C r w' := by
      apply eval_congr
      intro y hy
      rw [find_append, find_append, find_capture]
      by_cases hm : y ∈ params k n
      · have : (find y ((params k n).zip args).reverse).isSome := by
          have hin : ∃ a, (y, a) ∈ ((params k n).zip args).reverse := by
            obtain ⟨i, hi, rfl⟩ := List.getElem_of_mem hm
            have hi' : i < args.length := by rw [hlen]; rwa [params_length] at hi
            exact ⟨args[i], by
              rw [List.mem_reverse]
              rw [List.mem_iff_getElem]
              exact ⟨i, by simp [List.length_zip]; omega, by simp⟩⟩
          obtain ⟨a, ha⟩ := hin
          generalize ((params k n).zip args).reverse = l at ha
          induction l with
          | nil => simp at ha
          | cons p l ih =>
            obtain ⟨z, b⟩ := p
            simp only [find]
            by_cases hz : z = y
            · simp [hz]
            · simp only [List.mem_cons, Prod.mk.injEq] at ha
              rcases ha with ⟨h, _⟩ | ha
              · exact absurd h.symm hz
              · simp [hz, ih ha]
        obtain ⟨u, hu⟩ := Option.isSome_iff_exists.1 this
        simp [hu]
      · have : y ∈ (Core.lam (params k n) C).fv := by simp [Core.fv, hy, hm]
        simp [this]
    rw [hsame]
    have hu' : Unshadowed (((params k n).zip args).reverse ++ env) := by
      intro q hq
      rw [find_ext]
      · exact hu q hq
      · intro b hb e
        obtain ⟨j, _, _, h3⟩ := params_mem (List.of_mem_zip (List.mem_reverse.1 hb)).1
        rw [e] at h3
        cases h3
    rw [(ev E _ w false (listVal args .nil) r w' hu' (listC_settled n k args env hlen) (.inl rfl)).2]
    exact evalClauses_ext (expansions_old x) _ (by
      intro p hp
      obtain ⟨j, h1, _, h3⟩ := params_mem (List.of_mem_zip (List.mem_reverse.1 hp)).1
      exact ⟨j, by omega, h3⟩)

theorem argCount_some : ∀ (rs : List Rule) {n : Nat}, rulesArgCount (.list (srcForms (rs.map Rule.src))) = some n →
    ∀ r ∈ rs, r.written.length = n
  | [], n, h => by simp
  | [r], n, h => by
    simp only [List.map_cons, List.map_nil, srcForms, Rule.src, Datum.list, rulesArgCount, cdr, Option.bind_eq_bind, Option.bind_some, length_list,
      Option.some.injEq] at h
    simpa using h
  | r :: q :: rs, n, h => by
    have hq := argCount_some (q :: rs) (n := n)
    simp only [List.map_cons, srcForms, Datum.list] at h hq
    rw [rulesArgCount] at h
    · simp only [Rule.src, cdr, length_list, Option.bind_eq_bind, Option.bind_some] at h hq
      cases hc : rulesArgCount (.cons (.cons (kw "list") (.list q.written)) (.cons (Rule.src q).action
          (.list (srcForms (rs.map Rule.src))))) with
      | none => simp only [Rule.src] at hc; simp [hc] at h
      | some c =>
        simp only [Rule.src] at hc
        simp only [hc, Option.bind_some] at h
        split at h
        · simp only [Option.some.injEq] at h
          subst h
          rename_i e
          subst e
          intro x hx
          rcases List.mem_cons.1 hx with rfl | hx
          · rfl
          · exact hq hc x hx
        · simp at h
    · simp

/-- Rules with different numbers of patterns: the definition is refused. -/
theorem C60_uneven (name : Sym) {rules : List Rule} (hr : ∀ r ∈ rules, ∃ n, RuleOk mt K n r) {q r : Rule} (hq : q ∈ rules) (hr' : r ∈ rules)
    (hne : q.pats.length ≠ r.pats.length) (k : Nat) :
    funcMacro (.cons (kw "func") (.cons (.sym name) (.list (ruleForms rules)))) k = none := by
  have hbody : extractRules (.list (ruleForms rules)) = some (.list (srcForms (rules.map Rule.src))) := by
    have := extract_rules_rest (extra := []) (by simp) rules (fun r hm => (hr r hm).elim fun _ h => h.arrow) []
    simpa [extractRules, Datum.list] using this
  have hlen : ∀ x ∈ rules, x.written.length = x.pats.length := fun x hx => (hr x hx).elim fun _ h => pats_length h.pats
  have hc : rulesArgCount (.list (srcForms (rules.map Rule.src))) = none := by
    cases hc : rulesArgCount (.list (srcForms (rules.map Rule.src))) with
    | none => rfl
    | some n =>
      have h := argCount_some rules hc
      exact absurd ((hlen q hq).symm.trans ((h q hq).trans ((h r hr').symm.trans (hlen r hr')))) hne
  simp only [funcMacro, cddr, cdr, Option.bind_some, hbody, bind, StateT.bind, liftM, monadLift, MonadLift.monadLift, StateT.lift, pure,
    Option.bind_some, hc, Option.bind_none]

/-- **Disagreement.** Patterns behind the last rule, without `=>` and action, are not refused: they are dropped. -/
theorem C60_leftover_wrong (name : Sym) {rules : List Rule} (hr : ∀ r ∈ rules, ∃ n, RuleOk mt K n r) {extra : List Datum}
    (he : ∀ d ∈ extra, d ≠ kw "=>" ∧ d ≠ kw "where") (k : Nat) :
    funcMacro (.cons (kw "func") (.cons (.sym name) (.list (ruleForms rules ++ extra)))) k =
      funcMacro (.cons (kw "func") (.cons (.sym name) (.list (ruleForms rules)))) k := by
  have h1 : ∀ extra, (∀ d ∈ extra, d ≠ kw "=>" ∧ d ≠ kw "where") →
      extractRules (.list (ruleForms rules ++ extra)) = some (.list (srcForms (rules.map Rule.src))) := by
    intro extra he
    have := extract_rules_rest he rules (fun r hm => (hr r hm).elim fun _ h => h.arrow) []
    simpa [extractRules, Datum.list] using this
  have h2 := h1 [] (by simp)
  rw [List.append_nil] at h2
  simp only [funcMacro, cddr, cdr, cadr, car, Option.bind_some, h1 extra he, h2]

/-- `p 3 y => (set 'g 1) where x`, `z x x => x` -/
def rulesExample : List Rule :=
  [⟨[kw "p", .int 3], [.var (.named "p"), .lit (.int 3)], some (kw "x"), setG.form⟩,
   ⟨[.list [kw "list", kw "z"], kw "x"], [.cons (.var (.named "z")) (.lit .nil), .var (.named "x")], none, kw "x"⟩]

example := C60_func (K := 1) initMacros_std (Nat.le_refl 1) (.named "f") 2 rulesExample (by simp [rulesExample])
  (by
    intro r hr
    simp only [rulesExample, List.mem_cons, List.not_mem_nil, or_false] at hr
    rcases hr with rfl | rfl
    · exact ⟨.cons (.var _) (.cons (.lit (.int 3)) .nil), rfl, by simp [kw], by simpa using x_expandable 1,
        setG_expandable 1, by simp, by simp [Pat.vars], by simp [Pat.vars]⟩
    · exact ⟨.cons (.list (.var _) .list0) (.cons (.var _) .nil), rfl, by simp [kw, Datum.list], by simp, x_expandable 1,
        by simp, by simp [Pat.vars], by simp [Pat.vars]⟩) 1 (Nat.le_refl 1)

/-- `x => x`, `x x => x`: two rules of different lengths -/
def unevenExample : List Rule :=
  [⟨[kw "x"], [.var (.named "x")], none, kw "x"⟩, ⟨[kw "x", kw "x"], [.var (.named "x"), .var (.named "x")], none, kw "x"⟩]

theorem unevenExample_ok : ∀ r ∈ unevenExample, ∃ n, RuleOk initMacros 1 n r := by
  intro r hr
  simp only [unevenExample, List.mem_cons, List.not_mem_nil, or_false] at hr
  rcases hr with rfl | rfl
  · exact ⟨1, .cons (.var _) .nil, rfl, by simp [kw], by simp, x_expandable 1, by simp [kw], by simp [Pat.vars], by simp [Pat.vars]⟩
  · exact ⟨2, .cons (.var _) (.cons (.var _) .nil), rfl, by simp [kw], by simp, x_expandable 1, by simp [kw], by simp [Pat.vars],
      by simp [Pat.vars]⟩

example (k : Nat) : funcMacro (.cons (kw "func") (.cons (kw "f") (.list (ruleForms unevenExample)))) k = none :=
  C60_uneven (.named "f") unevenExample_ok (q := unevenExample[0]) (r := unevenExample[1]) (by simp [unevenExample]) (by simp [unevenExample])
    (by simp [unevenExample]) k

/-- `(func f x => x y)` -/
example (k : Nat) : (funcMacro (.list [kw "func", kw "f", kw "x", kw "=>", kw "x", kw "y"]) k).isSome := rfl

end Cora.Macro
