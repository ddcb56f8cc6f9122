import Verif.Props.MacroBase
/-
C42: `let`, `cond`, `or`, `and` and `begin` mean what they say.
-/
open Spec.Lang
namespace Cora.Macro
variable {mt : Macros} {K : Nat}

theorem old_ite {a b c : Core} (ha : Old K a) (hb : Old K b) (hc : Old K c) : Old K (.ite a b c) := by
  intro n hn hm
  simp only [Core.fv, List.mem_append] at hm
  rcases hm with (hm | hm) | hm
  · exact ha n hn hm
  · exact hb n hn hm
  · exact hc n hn hm

theorem old_seq {a b : Core} (ha : Old K a) (hb : Old K b) : Old K (.seq a b) := by
  intro n hn hm
  simp only [Core.fv, List.mem_append] at hm
  rcases hm with hm | hm
  · exact ha n hn hm
  · exact hb n hn hm

theorem old_bind {x : Sym} {a b : Core} (ha : Old K a) (hb : ∀ n, K ≤ n → Sym.gen n ∈ b.fv → Sym.gen n = x) :
    Old K (.bind x a b) := by
  intro n hn hm
  simp only [Core.fv, List.mem_append, List.mem_filter, decide_eq_true_eq] at hm
  rcases hm with hm | hm
  · exact ha n hn hm
  · exact hm.2 (hb n hn hm.1)

theorem old_lit (c : Const) : Old K (.lit c) := by intro n _ hm; simp [Core.fv] at hm

theorem old_error (m : String) : Old K (errorCall m) := by intro n _ hm; simp [errorCall, Core.fv, Core.fvs] at hm

theorem turns_error (hs : Std mt) (m : String) (k : Nat) :
    Turns mt (.list [kw "error", .str m]) k (errorCall m) k :=
  turns_app_sym hs (not_special hs (by simp)) (.cons (turns_lit (.str m) k) .nil)

/-! ### or -/

/-- the nested `if`s that `or` stands for -/
def orForm : List Datum → Datum
  | [] => .bool false
  | e :: es => .list [kw "if", e, .bool true, orForm es]

theorem rewriteOr_list : ∀ es : List Datum, (∀ e ∈ es, e ≠ .bool true) → rewriteOr (.list es) = some (orForm es)
  | [], _ => rfl
  | e :: es, h => by
    have h1 : orForm es ≠ .bool true := by cases es <;> simp [orForm, Datum.list]
    simp only [Datum.list, rewriteOr]
    rw [if_neg (h e (by simp)), rewriteOr_list es fun x hx => h x (by simp [hx])]
    simp [h1, orForm, Datum.list]

theorem orForm_turns (hs : Std mt) : ∀ (es : List Datum) (_ : ∀ e ∈ es, Expandable mt K e) (k : Nat), K ≤ k →
    ∃ c k' cs, Turns mt (orForm es) k c k' ∧ Old K c ∧ Expansions mt K es cs ∧
      ∀ {W : Type} (E : Ext W) env w v w', Eval E env w c v w' ↔ EvalOr E env w cs v w'
  | [], _, k, _ => by
    refine ⟨_, k, [], turns_lit (.bool false) k, old_lit _, .nil, ?_⟩
    intro W E env w v w'
    rw [eval_lit]
    constructor
    · rintro ⟨rfl, rfl⟩; exact .none w'
    · intro h; cases h; exact ⟨rfl, rfl⟩
  | e :: es, hes, k, hk => by
    obtain ⟨c1, k1, t1, o1⟩ := hes e (by simp) k hk
    obtain ⟨c2, k2, cs, t2, o2, x2, ev⟩ := orForm_turns hs es (fun x hx => hes x (by simp [hx])) k1
      (Nat.le_trans hk t1.le)
    refine ⟨_, k2, c1 :: cs, turns_ite hs t1 (turns_lit (.bool true) k1) t2, old_ite o1 (old_lit _) o2,
      .cons ⟨k, k1, hk, t1, o1⟩ x2, ?_⟩
    intro W E env w v w'
    rw [eval_ite]
    constructor
    · rintro ⟨u, w1, h1, ⟨rfl, h2⟩ | ⟨hu, h2⟩⟩
      · obtain ⟨rfl, rfl⟩ := eval_lit.1 h2; exact .stop _ _ _ _ h1
      · exact .next _ _ _ _ _ _ _ h1 hu ((ev E _ _ _ _).1 h2)
    · intro h
      cases h with
      | stop _ _ _ _ h1 => exact ⟨_, _, h1, .inl ⟨rfl, eval_lit.2 ⟨rfl, rfl⟩⟩⟩
      | next _ _ _ _ _ _ _ h1 hu h2 => exact ⟨_, _, h1, .inr ⟨hu, (ev E _ _ _ _).2 h2⟩⟩

/-- `(or e …)`. Missing: operand lists with a literal `true` in them, for which the claim is false
(`C42_or_drops_effects`). -/
theorem C42_or_partial (hs : Std mt) (es : List Datum) (hes : ∀ e ∈ es, Expandable mt K e)
    (hlit : ∀ e ∈ es, e ≠ .bool true) (k : Nat) (hk : K ≤ k) :
    ∃ c k' cs, Turns mt (.cons (kw "or") (.list es)) k c k' ∧ Old K c ∧ Expansions mt K es cs ∧
      ∀ {W : Type} (E : Ext W) env w v w', Eval E env w c v w' ↔ EvalOr E env w cs v w' := by
  obtain ⟨c, k', cs, t, o, x, ev⟩ := orForm_turns hs es hes k hk
  refine ⟨c, k', cs, turns_std hs (by decide) (by decide) rfl (g := fun e => (cdr e).bind rewriteOr) ?_ ?_ t, o, x, ev⟩
  · simpa [cdr] using rewriteOr_list es hlit
  · cases es <;> simp [orForm, Datum.list]

/-! ### and -/

/-- the nested `if`s that `and` stands for -/
def andForm : List Datum → Datum
  | [] => .bool true
  | e :: es => .list [kw "if", e, andForm es, .bool false]

theorem rewriteAnd_list : ∀ es : List Datum, (∀ e ∈ es, e ≠ .bool false) → rewriteAnd (.list es) = some (andForm es)
  | [], _ => rfl
  | e :: es, h => by
    have h1 : andForm es ≠ .bool false := by cases es <;> simp [andForm, Datum.list]
    simp only [Datum.list, rewriteAnd]
    rw [if_neg (h e (by simp)), rewriteAnd_list es fun x hx => h x (by simp [hx])]
    simp [h1, andForm, Datum.list]

theorem andForm_turns (hs : Std mt) : ∀ (es : List Datum) (_ : ∀ e ∈ es, Expandable mt K e) (k : Nat), K ≤ k →
    ∃ c k' cs, Turns mt (andForm es) k c k' ∧ Old K c ∧ Expansions mt K es cs ∧
      ∀ {W : Type} (E : Ext W) env w v w', Eval E env w c v w' ↔ EvalAnd E env w cs v w'
  | [], _, k, _ => by
    refine ⟨_, k, [], turns_lit (.bool true) k, old_lit _, .nil, ?_⟩
    intro W E env w v w'
    rw [eval_lit]
    constructor
    · rintro ⟨rfl, rfl⟩; exact .none w'
    · intro h; cases h; exact ⟨rfl, rfl⟩
  | e :: es, hes, k, hk => by
    obtain ⟨c1, k1, t1, o1⟩ := hes e (by simp) k hk
    obtain ⟨c2, k2, cs, t2, o2, x2, ev⟩ := andForm_turns hs es (fun x hx => hes x (by simp [hx])) k1
      (Nat.le_trans hk t1.le)
    refine ⟨_, k2, c1 :: cs, turns_ite hs t1 t2 (turns_lit (.bool false) k2), old_ite o1 o2 (old_lit _),
      .cons ⟨k, k1, hk, t1, o1⟩ x2, ?_⟩
    intro W E env w v w'
    rw [eval_ite]
    constructor
    · rintro ⟨u, w1, h1, ⟨rfl, h2⟩ | ⟨hu, h2⟩⟩
      · exact .next _ _ _ _ _ _ h1 ((ev E _ _ _ _).1 h2)
      · obtain ⟨rfl, rfl⟩ := eval_lit.1 h2; exact .stop _ _ _ _ _ h1 hu
    · intro h
      cases h with
      | stop _ _ _ _ _ h1 hu => exact ⟨_, _, h1, .inr ⟨hu, eval_lit.2 ⟨rfl, rfl⟩⟩⟩
      | next _ _ _ _ _ _ h1 h2 => exact ⟨_, _, h1, .inl ⟨rfl, (ev E _ _ _ _).2 h2⟩⟩

/-- `(and e …)`. Missing: operand lists with a literal `false` in them, for which the claim is false
(`C42_and_drops_effects`). -/
theorem C42_and_partial (hs : Std mt) (es : List Datum) (hes : ∀ e ∈ es, Expandable mt K e)
    (hlit : ∀ e ∈ es, e ≠ .bool false) (k : Nat) (hk : K ≤ k) :
    ∃ c k' cs, Turns mt (.cons (kw "and") (.list es)) k c k' ∧ Old K c ∧ Expansions mt K es cs ∧
      ∀ {W : Type} (E : Ext W) env w v w', Eval E env w c v w' ↔ EvalAnd E env w cs v w' := by
  obtain ⟨c, k', cs, t, o, x, ev⟩ := andForm_turns hs es hes k hk
  refine ⟨c, k', cs, turns_std hs (by decide) (by decide) rfl (g := fun e => (cdr e).bind rewriteAnd) ?_ ?_ t, o, x, ev⟩
  · simpa [cdr] using rewriteAnd_list es hlit
  · cases es <;> simp [andForm, Datum.list]

/-! ### cond -/

/-- the clauses of `cond` as written -/
def condClauses (cls : List (Datum × Datum)) : Datum := .list (cls.map fun c => .list [c.1, c.2])

/-- each clause with its expansion -/
inductive ClauseExpansions (mt : Macros) (K : Nat) : List (Datum × Datum) → List (Core × Core) → Prop where
  | nil : ClauseExpansions mt K [] []
  | cons {t a ct ca cls ccs} : IsExpansion mt K t ct → IsExpansion mt K a ca → ClauseExpansions mt K cls ccs →
      ClauseExpansions mt K ((t, a) :: cls) ((ct, ca) :: ccs)

/-- `(cond (test action) …)` -/
theorem C42_cond (hs : Std mt) : ∀ (cls : List (Datum × Datum))
    (_ : ∀ c ∈ cls, Expandable mt K c.1 ∧ Expandable mt K c.2) (k : Nat) (_ : K ≤ k),
    ∃ c k' cs, Turns mt (.cons (kw "cond") (condClauses cls)) k c k' ∧ Old K c ∧ ClauseExpansions mt K cls cs ∧
      ∀ {W : Type} (E : Ext W) env w v w', Eval E env w c v w' ↔ EvalCond E env w cs v w'
  | [], _, k, _ => by
    refine ⟨_, k, [], turns_std hs (by decide) (by decide) rfl (g := condMacro) (e1 := .list [kw "error", .str "no cond match"])
      (by simp [condMacro, cdr, condClauses, Datum.list]) (by simp [Datum.list]) (turns_error hs _ k), old_error _, .nil, ?_⟩
    intro W E env w v w'
    constructor
    · exact .none _ _ _
    · intro h; cases h with
      | none _ _ _ h => exact h
  | (t, a) :: cls, hc, k, hk => by
    obtain ⟨ct, k1, tt, ot⟩ := (hc (t, a) (by simp)).1 k hk
    obtain ⟨ca, k2, ta, oa⟩ := (hc (t, a) (by simp)).2 k1 (Nat.le_trans hk tt.le)
    obtain ⟨c3, k3, cs, t3, o3, x3, ev⟩ := C42_cond hs cls (fun x hx => hc x (by simp [hx])) k2
      (Nat.le_trans hk (Nat.le_trans tt.le ta.le))
    refine ⟨_, k3, (ct, ca) :: cs, turns_std hs (by decide) (by decide) rfl (g := condMacro)
      (e1 := .list [kw "if", t, a, .cons (kw "cond") (condClauses cls)])
      (by simp [condMacro, cdr, cadr, cddr, car, condClauses, Datum.list]) (by simp [Datum.list])
      (turns_ite hs tt ta t3), old_ite ot oa o3,
      .cons ⟨k, k1, hk, tt, ot⟩ ⟨k1, k2, Nat.le_trans hk tt.le, ta, oa⟩ x3, ?_⟩
    intro W E env w v w'
    rw [eval_ite]
    constructor
    · rintro ⟨u, w1, h1, ⟨rfl, h2⟩ | ⟨hu, h2⟩⟩
      · exact .hit _ _ _ _ _ _ _ h1 h2
      · exact .next _ _ _ _ _ _ _ _ h1 hu ((ev E _ _ _ _).1 h2)
    · intro h
      cases h with
      | hit _ _ _ _ _ _ _ h1 h2 => exact ⟨_, _, h1, .inl ⟨rfl, h2⟩⟩
      | next _ _ _ _ _ _ _ _ h1 hu h2 => exact ⟨_, _, h1, .inr ⟨hu, (ev E _ _ _ _).2 h2⟩⟩

/-! ### begin -/

/-- the nested `do`s that `begin` stands for -/
def doForm : Datum → List Datum → Datum
  | e, [] => e
  | e, e' :: es => .list [kw "do", e, doForm e' es]

theorem rewriteBegin_list : ∀ (e : Datum) (es : List Datum), rewriteBegin (.list (e :: es)) = some (doForm e es)
  | e, [] => rfl
  | e, e' :: es => by
    have h := rewriteBegin_list e' es
    simp only [Datum.list] at h ⊢
    rw [rewriteBegin, h]
    · rfl
    · simp

theorem doForm_turns (hs : Std mt) : ∀ (es : List Datum) (e : Datum) (_ : Expandable mt K e)
    (_ : ∀ x ∈ es, Expandable mt K x) (k : Nat), K ≤ k →
    ∃ c k' cs, Turns mt (doForm e es) k c k' ∧ Old K c ∧ Expansions mt K (e :: es) cs ∧
      ∀ {W : Type} (E : Ext W) env w v w', Eval E env w c v w' ↔ EvalBegin E env w cs v w'
  | [], e, he, _, k, hk => by
    obtain ⟨c1, k1, t1, o1⟩ := he k hk
    refine ⟨c1, k1, [c1], t1, o1, .cons ⟨k, k1, hk, t1, o1⟩ .nil, ?_⟩
    intro W E env w v w'
    constructor
    · exact .last _ _ _ _
    · intro h; cases h with
      | last _ _ _ _ h => exact h
      | next _ _ _ _ _ _ _ _ hne => exact absurd rfl hne
  | e' :: es, e, he, hes, k, hk => by
    obtain ⟨c1, k1, t1, o1⟩ := he k hk
    obtain ⟨c2, k2, cs, t2, o2, x2, ev⟩ := doForm_turns hs es e' (hes e' (by simp)) (fun x hx => hes x (by simp [hx])) k1
      (Nat.le_trans hk t1.le)
    refine ⟨_, k2, c1 :: cs, turns_seq hs t1 t2, old_seq o1 o2, .cons ⟨k, k1, hk, t1, o1⟩ x2, ?_⟩
    have hne : cs ≠ [] := by cases x2; simp
    intro W E env w v w'
    rw [eval_seq]
    constructor
    · rintro ⟨u, w1, h1, h2⟩
      exact .next _ _ _ _ _ _ _ h1 hne ((ev E _ _ _ _).1 h2)
    · intro h
      cases h with
      | last => exact absurd rfl hne
      | next _ _ _ _ _ _ _ h1 _ h2 => exact ⟨_, _, h1, (ev E _ _ _ _).2 h2⟩

/-- `(begin e1 … en)` -/
theorem C42_begin (hs : Std mt) (es : List Datum) (hne : es ≠ []) (hes : ∀ e ∈ es, Expandable mt K e)
    (k : Nat) (hk : K ≤ k) :
    ∃ c k' cs, Turns mt (.cons (kw "begin") (.list es)) k c k' ∧ Old K c ∧ Expansions mt K es cs ∧
      ∀ {W : Type} (E : Ext W) env w v w', Eval E env w c v w' ↔ EvalBegin E env w cs v w' := by
  cases es with
  | nil => exact absurd rfl hne
  | cons e es =>
    obtain ⟨c, k', cs, t, o, x, ev⟩ := doForm_turns hs es e (hes e (by simp)) (fun x hx => hes x (by simp [hx])) k hk
    refine ⟨c, k', cs, turns_std hs (by decide) (by decide) rfl (g := fun e => (cdr e).bind rewriteBegin) ?_ ?_ t, o, x, ev⟩
    · simpa [cdr] using rewriteBegin_list e es
    · cases es with
      | nil =>
        simp only [doForm, Datum.list]
        intro h
        have := congrArg sizeOf h
        simp at this
        omega
      | cons => simp [doForm, Datum.list]

/-! ### let -/

/-- the operands of `let` as written -/
def letOperands : List (Sym × Datum) → Datum → List Datum
  | [], b => [b]
  | (x, e) :: r, b => .sym x :: e :: letOperands r b

/-- the nested `let`s -/
def letForm : List (Sym × Datum) → Datum → Datum
  | [], b => b
  | (x, e) :: r, b => .list [kw "let", .sym x, e, letForm r b]

theorem rewriteLet_list : ∀ (bs : List (Sym × Datum)) (b : Datum), rewriteLet (.list (letOperands bs b)) = some (letForm bs b)
  | [], b => rfl
  | (x, e) :: r, b => by
    have h := rewriteLet_list r b
    simp only [letOperands, Datum.list] at h ⊢
    rw [rewriteLet, h]
    · rfl

theorem letForm_turns (hs : Std mt) : ∀ (bs : List (Sym × Datum)) (b : Datum) (_ : Expandable mt K b)
    (_ : ∀ p ∈ bs, Expandable mt K p.2) (k : Nat), K ≤ k →
    ∃ c k' cs cb, Turns mt (letForm bs b) k c k' ∧ Old K c ∧ IsExpansion mt K b cb ∧ Expansions mt K (bs.map (·.2)) cs ∧
      ∀ {W : Type} (E : Ext W) env w v w', Eval E env w c v w' ↔ EvalLet E env w ((bs.map (·.1)).zip cs) cb v w'
  | [], b, hb, _, k, hk => by
    obtain ⟨c1, k1, t1, o1⟩ := hb k hk
    refine ⟨c1, k1, [], c1, t1, o1, ⟨k, k1, hk, t1, o1⟩, .nil, ?_⟩
    intro W E env w v w'
    constructor
    · exact .body _ _ _ _ _
    · intro h; cases h with
      | body _ _ _ _ _ h => exact h
  | (x, e) :: r, b, hb, hes, k, hk => by
    obtain ⟨c1, k1, t1, o1⟩ := hes (x, e) (by simp) k hk
    obtain ⟨c2, k2, cs, cb, t2, o2, xb, x2, ev⟩ := letForm_turns hs r b hb (fun x hx => hes x (by simp [hx])) k1
      (Nat.le_trans hk t1.le)
    refine ⟨_, k2, c1 :: cs, cb, turns_bind hs t1 t2, old_bind o1 fun n hn hm => absurd hm (o2 n hn), xb,
      .cons ⟨k, k1, hk, t1, o1⟩ x2, ?_⟩
    intro W E env w v w'
    rw [eval_bind]
    constructor
    · rintro ⟨u, w1, h1, h2⟩
      exact .next _ _ _ _ _ _ _ _ _ _ h1 ((ev E _ _ _ _).1 h2)
    · intro h
      cases h with
      | next _ _ _ _ _ _ _ _ _ _ h1 h2 => exact ⟨_, _, h1, (ev E _ _ _ _).2 h2⟩

/-- `(let x1 e1 … xn en body)` -/
theorem C42_let (hs : Std mt) (bs : List (Sym × Datum)) (b : Datum) (hb : Expandable mt K b)
    (hes : ∀ p ∈ bs, Expandable mt K p.2) (k : Nat) (hk : K ≤ k) :
    ∃ c k' cs cb, Turns mt (.cons (kw "let") (.list (letOperands bs b))) k c k' ∧ Old K c ∧ IsExpansion mt K b cb ∧
      Expansions mt K (bs.map (·.2)) cs ∧
      ∀ {W : Type} (E : Ext W) env w v w', Eval E env w c v w' ↔ EvalLet E env w ((bs.map (·.1)).zip cs) cb v w' := by
  obtain ⟨c, k', cs, cb, t, o, xb, x, ev⟩ := letForm_turns hs bs b hb hes k hk
  refine ⟨c, k', cs, cb, ?_, o, xb, x, ev⟩
  by_cases he : letForm bs b = .cons (kw "let") (.list (letOperands bs b))
  · rw [← he]; exact t
  · refine turns_std hs (by decide) (by decide) rfl (g := fun e => (cdr e).bind rewriteLet) ?_ he t
    simpa [cdr] using rewriteLet_list bs b

/-! ### literal operands -/

/-- the world of the examples: nothing outside -/
def noExt : Ext Unit := ⟨fun _ _ _ => none, fun _ _ _ => none⟩

/-- no global variable is set -/
def noWorld : World Unit := ⟨fun _ => none, ()⟩

/-- `(set 'g 1)` -/
def setG : Core := .app (.var (.named "set")) [.quote (.sym (.named "g")), .lit (.int 1)]

theorem setG_turns (hs : Std mt) (hset : mt.fn (.named "set") = none) (k : Nat) : Turns mt setG.form k setG k := by
  refine turns_self hs setG k ⟨?_, trivial, trivial, trivial, trivial⟩
  intro x hx; cases hx
  rintro (h | h | h)
  · simp at h
  · simp [hset] at h
  · rw [hs.protect] at h; cases h

theorem setG_old : Old K setG := by intro n _ h; simp [setG, Core.fv, Core.fvs] at h

theorem setG_eval : Eval noExt [] noWorld setG (.int 1) (noWorld.set (.named "g") (.int 1)) :=
  evalF_sound 4 rfl

/-- `or` with a literal `true` after an operand: the operand is not evaluated. `(or (set 'g 1) true)` should set `g` and
does not. -/
theorem C42_or_drops_effects (hs : Std mt) (hset : mt.fn (.named "set") = none) (k : Nat) :
    ∃ c, Turns mt (.list [kw "or", setG.form, .bool true]) k c k ∧
      Expansions mt k [setG.form, .bool true] [setG, .lit (.bool true)] ∧
      ∃ v w', EvalOr noExt [] noWorld [setG, .lit (.bool true)] v w' ∧ ¬ Eval noExt [] noWorld c v w' := by
  refine ⟨.lit (.bool true), turns_std hs (by decide) (by decide) rfl (g := fun e => (cdr e).bind rewriteOr)
    (e1 := .bool true) rfl (by simp) (turns_lit (.bool true) k),
    .cons ⟨k, k, Nat.le_refl k, setG_turns hs hset k, setG_old⟩ (.cons ⟨k, k, Nat.le_refl k, turns_lit (.bool true) k, old_lit _⟩ .nil),
    _, _, .next _ _ _ _ _ _ _ setG_eval (by simp) (.stop _ _ _ _ (.lit ..)), ?_⟩
  intro h
  have h := congrFun (congrArg World.globals (eval_lit.1 h).2) (.named "g")
  simp [noWorld, World.set] at h

/-- `and` with a literal `false` after an operand: the operand is not evaluated -/
theorem C42_and_drops_effects (hs : Std mt) (hset : mt.fn (.named "set") = none) (k : Nat) :
    ∃ c, Turns mt (.list [kw "and", .list [kw "if", setG.form, .bool true, .bool true], .bool false]) k c k ∧
      Expansions mt k [.list [kw "if", setG.form, .bool true, .bool true], .bool false]
        [.ite setG (.lit (.bool true)) (.lit (.bool true)), .lit (.bool false)] ∧
      ∃ v w', EvalAnd noExt [] noWorld [.ite setG (.lit (.bool true)) (.lit (.bool true)), .lit (.bool false)] v w' ∧
        ¬ Eval noExt [] noWorld c v w' := by
  refine ⟨.lit (.bool false), turns_std hs (by decide) (by decide) rfl (g := fun e => (cdr e).bind rewriteAnd)
    (e1 := .bool false) rfl (by simp) (turns_lit (.bool false) k),
    .cons ⟨k, k, Nat.le_refl k, turns_ite hs (setG_turns hs hset k) (turns_lit (.bool true) k) (turns_lit (.bool true) k),
      old_ite setG_old (old_lit _) (old_lit _)⟩
      (.cons ⟨k, k, Nat.le_refl k, turns_lit (.bool false) k, old_lit _⟩ .nil),
    _, _, .next _ _ _ _ _ _ (.else _ _ _ _ _ _ _ _ _ setG_eval (by simp) (.lit ..)) (.stop _ _ _ _ _ (.lit ..) (by simp [Const.datum, Datum.val])), ?_⟩
  intro h
  have h := congrFun (congrArg World.globals (eval_lit.1 h).2) (.named "g")
  simp [noWorld, World.set] at h

/-! ### the hypotheses are met -/

/-- exactly the macros of init.cora -/
def initMacros : Macros where
  fn := fun | .named s => stdMacro s | .gen _ => none
  protect := .gen 0
  ex := fun _ => []

theorem initMacros_std : Std initMacros where
  std := fun _ _ h => h
  core := by intro s hs; simp at hs; rcases hs with rfl | rfl | rfl | rfl | rfl | rfl | rfl | rfl | rfl | rfl | rfl | rfl <;> rfl
  gen := fun _ => rfl
  protect := rfl

/-- `(set 'g 1)` can be an operand -/
theorem setG_expandable (K : Nat) : Expandable initMacros K setG.form :=
  fun k _ => ⟨setG, k, setG_turns initMacros_std rfl k, setG_old⟩

theorem x_expandable (K : Nat) : Expandable initMacros K (kw "x") :=
  fun k _ => ⟨.var (.named "x"), k, turns_var, by intro n _ h; simp [Core.fv] at h⟩

/-- `(or x (set 'g 1))`, `(and x (set 'g 1))`, `(begin x (set 'g 1) x)`, `(let x (set 'g 1) y x x)`,
`(cond (x (set 'g 1)) ((set 'g 1) x))`: the theorems apply -/
example := C42_or_partial (K := 1) initMacros_std [kw "x", setG.form]
  (by simp; exact ⟨x_expandable 1, setG_expandable 1⟩) (by simp [setG, Core.form]) 1 (Nat.le_refl 1)
example := C42_and_partial (K := 1) initMacros_std [kw "x", setG.form]
  (by simp; exact ⟨x_expandable 1, setG_expandable 1⟩) (by simp [setG, Core.form]) 1 (Nat.le_refl 1)
example := C42_begin (K := 1) initMacros_std [kw "x", setG.form, kw "x"] (by simp)
  (by simp; exact ⟨x_expandable 1, setG_expandable 1, x_expandable 1⟩) 1 (Nat.le_refl 1)
example := C42_let (K := 1) initMacros_std [(.named "x", setG.form), (.named "y", kw "x")] (kw "x") (x_expandable 1)
  (by simp; exact ⟨setG_expandable 1, x_expandable 1⟩) 1 (Nat.le_refl 1)
example := C42_cond (K := 1) initMacros_std [(kw "x", setG.form), (setG.form, kw "x")]
  (by simp; exact ⟨⟨x_expandable 1, setG_expandable 1⟩, setG_expandable 1, x_expandable 1⟩) 1 (Nat.le_refl 1)
/-- the second operand of `(or x (set 'g 1))` is evaluated when `x` is 0, and not when `x` is true -/
example : EvalOr noExt [(.named "x", .int 0)] noWorld [.var (.named "x"), setG] (.bool false)
    (noWorld.set (.named "g") (.int 1)) :=
  .next _ _ _ _ _ _ _ (.local _ _ _ _ rfl) (by simp) (.next _ _ _ _ _ _ _ (evalF_sound 4 rfl) (by simp [Const.datum, Datum.val]) (.none _))
example : EvalOr noExt [(.named "x", .bool true)] noWorld [.var (.named "x"), setG] (.bool true) noWorld :=
  .stop _ _ _ _ (.local _ _ _ _ rfl)

end Cora.Macro
