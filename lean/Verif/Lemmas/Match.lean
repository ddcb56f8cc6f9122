import Verif.Props.Quasi
/-
`match`: what one pattern test does.
-/
open Spec.Lang
namespace Cora.Macro
variable {mt : Macros} {K : Nat} {W : Type} {E : Ext W} {env : Env}

/-! ### data as values -/

theorem datum_val : ∀ d : Datum, d.val.datum = some d
  | .int _ => rfl
  | .bool _ => rfl
  | .nil => rfl
  | .str _ => rfl
  | .sym _ => rfl
  | .cons a d => by simp [Datum.val, Val.datum, datum_val a, datum_val d]

/-! ### primitives of one or two operands -/

/-- none of the primitives used by `match` is bound locally -/
def Unshadowed (env : Env) : Prop := ∀ p ∈ ["=", "cons", "cons?", "car", "cdr"], find (.named p) env = none

theorem eval_prim1 {p : String} (hp : primArity p = some 1) (hf : find (.named p) env = none) {a : Core} {w w' : World W}
    {v : Val} : Eval E env w (.app (.var (.named p)) [a]) v w' ↔
      ∃ x w1, Eval E env w a x w1 ∧ primApply E p [x] w1 = some (v, w') := by
  rw [eval_prim_exact (p := p) (by simp [Core.primOf, hf, hp]) (by simpa using hp)]
  constructor
  · rintro ⟨vs, w1, h1, h2⟩
    obtain ⟨x, xs, w2, rfl, hx, h1⟩ := evalArgs_cons.1 h1
    obtain ⟨rfl, rfl⟩ := evalArgs_nil.1 h1
    exact ⟨x, _, hx, h2⟩
  · rintro ⟨x, w1, hx, h2⟩
    exact ⟨[x], w1, evalArgs_cons.2 ⟨x, [], w1, rfl, hx, evalArgs_nil.2 ⟨rfl, rfl⟩⟩, h2⟩

theorem eval_prim2 {p : String} (hp : primArity p = some 2) (hf : find (.named p) env = none) {a b : Core} {w w' : World W}
    {v : Val} : Eval E env w (.app (.var (.named p)) [a, b]) v w' ↔
      ∃ x y w1 w2, Eval E env w a x w1 ∧ Eval E env w1 b y w2 ∧ primApply E p [x, y] w2 = some (v, w') := by
  rw [eval_prim_exact (p := p) (by simp [Core.primOf, hf, hp]) (by simpa using hp)]
  constructor
  · rintro ⟨vs, w1, h1, h2⟩
    obtain ⟨x, xs, w2, rfl, hx, h1⟩ := evalArgs_cons.1 h1
    obtain ⟨y, ys, w3, rfl, hy, h1⟩ := evalArgs_cons.1 h1
    obtain ⟨rfl, rfl⟩ := evalArgs_nil.1 h1
    exact ⟨x, y, _, _, hx, hy, h2⟩
  · rintro ⟨x, y, w1, w2, hx, hy, h2⟩
    exact ⟨[x, y], w2, evalArgs_cons.2 ⟨x, [y], w1, rfl, hx, evalArgs_cons.2 ⟨y, [], w2, rfl, hy, evalArgs_nil.2 ⟨rfl, rfl⟩⟩⟩, h2⟩

/-! ### scrutinees whose value is settled -/

/-- `(car s)`, `(cdr s)`, `(cons? s)`, `(= a s)` -/
def carC (s : Core) : Core := .app (.var (.named "car")) [s]
def cdrC (s : Core) : Core := .app (.var (.named "cdr")) [s]
def isConsC (s : Core) : Core := .app (.var (.named "cons?")) [s]
def eqC (a s : Core) : Core := .app (.var (.named "=")) [a, s]

/-- the expression `s`, made of variables, literals, `cons`, `car` and `cdr`, has the value `v`. Global variables occur in
it only if `g`. -/
inductive Settled (env : Env) (w : World W) (g : Bool) : Core → Val → Prop where
  | «local» {x v} : find x env = some v → Settled env w g (.var x) v
  | global {x v} : g = true → find x env = none → w.globals x = some v → Settled env w g (.var x) v
  | lit (c) : Settled env w g (.lit c) c.datum.val
  | cons {a d x y} : Settled env w g a x → Settled env w g d y → Settled env w g (consC a d) (.cons x y)
  | car {s x y} : Settled env w g s (.cons x y) → Settled env w g (carC s) x
  | cdr {s x y} : Settled env w g s (.cons x y) → Settled env w g (cdrC s) y

variable {w : World W} {g : Bool}

theorem Settled.eval (hu : Unshadowed env) {s : Core} {v : Val} (h : Settled env w g s v) :
    ∀ {v' w'}, Eval E env w s v' w' ↔ v' = v ∧ w' = w := by
  induction h with
  | «local» hx => exact eval_local hx
  | global _ hx hw =>
    intro v' w'
    constructor
    · intro h
      cases h with
      | «local» _ _ _ _ h1 => rw [hx] at h1; cases h1
      | global _ _ _ _ _ h2 => rw [hw] at h2; cases h2; exact ⟨rfl, rfl⟩
    · rintro ⟨rfl, rfl⟩; exact .global _ _ _ _ hx hw
  | lit c => exact eval_lit
  | cons _ _ iha ihd =>
    intro v' w'
    rw [eval_consC (hu _ (by simp))]
    constructor
    · rintro ⟨x, y, w1, h1, h2, rfl⟩
      obtain ⟨rfl, rfl⟩ := iha.1 h1
      obtain ⟨rfl, rfl⟩ := ihd.1 h2
      exact ⟨rfl, rfl⟩
    · rintro ⟨rfl, rfl⟩
      exact ⟨_, _, _, iha.2 ⟨rfl, rfl⟩, ihd.2 ⟨rfl, rfl⟩, rfl⟩
  | car _ ih =>
    intro v' w'
    unfold carC
    rw [eval_prim1 rfl (hu _ (by simp))]
    constructor
    · rintro ⟨x, w1, h1, h2⟩
      obtain ⟨rfl, rfl⟩ := ih.1 h1
      simp [primApply] at h2
      exact ⟨h2.1.symm, h2.2.symm⟩
    · rintro ⟨rfl, rfl⟩
      exact ⟨_, _, ih.2 ⟨rfl, rfl⟩, by simp [primApply]⟩
  | cdr _ ih =>
    intro v' w'
    unfold cdrC
    rw [eval_prim1 rfl (hu _ (by simp))]
    constructor
    · rintro ⟨x, w1, h1, h2⟩
      obtain ⟨rfl, rfl⟩ := ih.1 h1
      simp [primApply] at h2
      exact ⟨h2.1.symm, h2.2.symm⟩
    · rintro ⟨rfl, rfl⟩
      exact ⟨_, _, ih.2 ⟨rfl, rfl⟩, by simp [primApply]⟩

/-- more bindings, none of a variable in the expression -/
theorem Settled.extend {s : Core} {v : Val} (h : Settled env w g s v) {ext : Env} (hd : ∀ p ∈ ext, p.1 ∉ s.fv) :
    Settled (ext ++ env) w g s v := by
  induction h with
  | @«local» x v hx =>
    refine .local ?_
    rw [find_append, find_none_of_not_mem fun p hp e => hd p hp (by simp [Core.fv, e])]
    simpa using hx
  | @global x v hg hx hw =>
    refine .global hg ?_ hw
    rw [find_append, find_none_of_not_mem fun p hp e => hd p hp (by simp [Core.fv, e])]
    simpa using hx
  | lit c => exact .lit c
  | cons _ _ iha ihd =>
    exact .cons (iha fun p hp hm => hd p hp (by simp [consC, Core.fv, Core.fvs, hm]))
      (ihd fun p hp hm => hd p hp (by simp [consC, Core.fv, Core.fvs, hm]))
  | car _ ih => exact .car (ih fun p hp hm => hd p hp (by simp [carC, Core.fv, Core.fvs, hm]))
  | cdr _ ih => exact .cdr (ih fun p hp hm => hd p hp (by simp [cdrC, Core.fv, Core.fvs, hm]))

theorem Settled.world {s : Core} {v : Val} (h : Settled env w false s v) (w1 : World W) : Settled env w1 false s v := by
  induction h with
  | «local» hx => exact .local hx
  | global hg => cases hg
  | lit c => exact .lit c
  | cons _ _ iha ihd => exact .cons iha ihd
  | car _ ih => exact .car ih
  | cdr _ ih => exact .cdr ih

/-! ### one pattern -/

/-- `match1` on core forms: test `s` against the pattern, run `body` if it matches and call `cc` if not -/
def matchC : Pat → Core → Core → Sym → Core
  | .lit c, s, body, cc => if c.datum = s.form then body else .ite (eqC (.lit c) s) body (.app (.var cc) [])
  | .quote d, s, body, cc => .ite (eqC (.quote d) s) body (.app (.var cc) [])
  | .var x, s, body, _ => .bind x s body
  | .cons a d, .app (.var (.named "cons")) [s1, s2], body, cc => matchC a s1 (matchC d s2 body cc) cc
  | .cons a d, s, body, cc =>
    .ite (isConsC s) (matchC a (carC s) (matchC d (cdrC s) body cc) cc) (.app (.var cc) [])

theorem bind_names : ∀ (p : Pat) (v : Val) (bs : Env), p.bind v = some bs → ∀ b ∈ bs, b.1 ∈ p.vars
  | .lit c, v, bs, h => by
    simp only [Pat.bind] at h
    split at h <;> simp at h
    subst h; simp
  | .quote c, v, bs, h => by
    simp only [Pat.bind] at h
    split at h <;> simp at h
    subst h; simp
  | .var x, v, bs, h => by simp [Pat.bind] at h; subst h; simp [Pat.vars]
  | .cons a d, v, bs, h => by
    cases v with
    | cons x y =>
      simp only [Pat.bind] at h
      cases ha : a.bind x with
      | none => simp [ha] at h
      | some l =>
        cases hd : d.bind y with
        | none => simp [ha, hd] at h
        | some r =>
          simp [ha, hd] at h
          subst h
          intro b hb
          rcases List.mem_append.1 hb with hb | hb
          · exact List.mem_append.2 (.inl (bind_names a x l ha b hb))
          · exact List.mem_append.2 (.inr (bind_names d y r hd b hb))
    | _ => simp [Pat.bind] at h

theorem find_ext {ext : Env} {x : Sym} (h : ∀ b ∈ ext, b.1 ≠ x) : find x (ext ++ env) = find x env := by
  rw [find_append, find_none_of_not_mem h]; rfl

/-- calling the function without parameters that `cc` is bound to -/
theorem eval_call0 {n : Nat} {b : Core} {cenv : Env} (hc : find (.gen n) env = some (.clo [] b cenv)) {w w' : World W}
    {v : Val} : Eval E env w (.app (.var (.gen n)) []) v w' ↔ Eval E cenv w b v w' := by
  rw [eval_app rfl]
  constructor
  · rintro ⟨g, vs, w1, w2, h1, h2, h3⟩
    obtain ⟨rfl, rfl⟩ := (eval_local hc).1 h1
    obtain ⟨rfl, rfl⟩ := evalArgs_nil.1 h2
    simpa using (apply_clo_exact rfl).1 h3
  · intro h
    exact ⟨_, [], w, w, (eval_local hc).2 ⟨rfl, rfl⟩, .nil .., (apply_clo_exact rfl).2 (by simpa using h)⟩

theorem eq_eval (hu : Unshadowed env) {s a : Core} {v : Val} {d : Datum} (hs : Settled env w g s v)
    (ha : ∀ {x w'}, Eval E env w a x w' ↔ x = d.val ∧ w' = w) {x : Val} {w' : World W} :
    Eval E env w (eqC a s) x w' ↔ x = .bool (decide (v.datum = some d)) ∧ w' = w := by
  unfold eqC
  rw [eval_prim2 rfl (hu _ (by simp))]
  have key : primApply E "=" [d.val, v] w = some (.bool (decide (v.datum = some d)), w) := by
    simp only [primApply, datum_val]
    cases hv : v.datum with
    | none => simp
    | some y => simp [eq_comm]
  constructor
  · rintro ⟨x1, y1, w1, w2, h1, h2, h3⟩
    obtain ⟨rfl, rfl⟩ := ha.1 h1
    obtain ⟨rfl, rfl⟩ := (hs.eval hu).1 h2
    rw [key] at h3
    cases h3; exact ⟨rfl, rfl⟩
  · rintro ⟨rfl, rfl⟩
    exact ⟨_, _, _, _, ha.2 ⟨rfl, rfl⟩, (hs.eval hu).2 ⟨rfl, rfl⟩, key⟩

def isPair : Val → Bool
  | .cons _ _ => true
  | _ => false

theorem isCons_eval (hu : Unshadowed env) {s : Core} {v : Val} (hs : Settled env w g s v) {x : Val} {w' : World W} :
    Eval E env w (isConsC s) x w' ↔ x = .bool (isPair v) ∧ w' = w := by
  unfold isConsC
  rw [eval_prim1 rfl (hu _ (by simp))]
  have key : primApply E "cons?" [v] w = some (.bool (isPair v), w) := by
    cases v <;> simp [primApply, isPair]
  constructor
  · rintro ⟨x1, w1, h1, h3⟩
    obtain ⟨rfl, rfl⟩ := (hs.eval hu).1 h1
    rw [key] at h3
    cases h3; exact ⟨rfl, rfl⟩
  · rintro ⟨rfl, rfl⟩
    exact ⟨_, _, (hs.eval hu).2 ⟨rfl, rfl⟩, key⟩

theorem form_datum {s : Core} {c : Const} (h : c.datum = s.form) : s = .lit c := by
  cases s with
  | lit c' => cases c <;> cases c' <;> simp [Core.form, Const.datum] at h ⊢ <;> exact h.symm
  | var x => cases c <;> simp [Core.form, Const.datum] at h
  | _ => cases c <;> simp [Core.form, Const.datum, Datum.list] at h

/-- what `match1` does: if the pattern matches the value of `s` the body runs with the pattern's variables bound,
otherwise the continuation is called -/
theorem match_eval {n : Nat} {more : Core} {cenv : Env} : ∀ (p : Pat) (s : Core) (v : Val) (env : Env)
    (_ : Unshadowed env) (_ : Settled env w g s v) (_ : find (.gen n) env = some (.clo [] more cenv))
    (_ : ∀ x ∈ p.vars, x ∉ s.fv) (_ : ∀ x ∈ p.vars, x ∉ ["=", "cons", "cons?", "car", "cdr"].map Sym.named)
    (_ : Sym.gen n ∉ p.vars) (body : Core) (r : Val) (w' : World W),
    Eval E env w (matchC p s body (.gen n)) r w' ↔
      (∃ bs, p.bind v = some bs ∧ Eval E (bs.reverse ++ env) w body r w') ∨
      (p.bind v = none ∧ Eval E cenv w more r w')
  | .lit c, s, v, env, hu, hs, hc, _, _, _, body, r, w' => by
    simp only [matchC, Pat.bind]
    by_cases he : c.datum = s.form
    · have := form_datum he
      subst this
      have hv : v = c.datum.val := by cases hs; rfl
      rw [if_pos he, hv, datum_val]
      simp
    · rw [if_neg he, eval_ite]
      by_cases hv : v.datum = some c.datum
      · rw [if_pos hv]
        constructor
        · rintro ⟨u, w1, h1, h2⟩
          obtain ⟨rfl, rfl⟩ := (eq_eval hu hs eval_lit).1 h1
          simp [hv] at h2
          exact .inl ⟨[], rfl, by simpa using h2⟩
        · rintro (⟨bs, h1, h2⟩ | ⟨h1, _⟩)
          · cases h1
            exact ⟨_, _, (eq_eval hu hs eval_lit).2 ⟨rfl, rfl⟩, .inl ⟨by simp [hv], by simpa using h2⟩⟩
          · cases h1
      · rw [if_neg hv]
        constructor
        · rintro ⟨u, w1, h1, h2⟩
          obtain ⟨rfl, rfl⟩ := (eq_eval hu hs eval_lit).1 h1
          simp [hv] at h2
          exact .inr ⟨rfl, (eval_call0 hc).1 h2⟩
        · rintro (⟨bs, h1, h2⟩ | ⟨_, h2⟩)
          · cases h1
          · exact ⟨_, _, (eq_eval hu hs eval_lit).2 ⟨rfl, rfl⟩, .inr ⟨by simp [hv], (eval_call0 hc).2 h2⟩⟩
  | .quote d, s, v, env, hu, hs, hc, _, _, _, body, r, w' => by
    simp only [matchC, Pat.bind]
    rw [eval_ite]
    by_cases hv : v.datum = some d
    · rw [if_pos hv]
      constructor
      · rintro ⟨u, w1, h1, h2⟩
        obtain ⟨rfl, rfl⟩ := (eq_eval hu hs eval_quote).1 h1
        simp [hv] at h2
        exact .inl ⟨[], rfl, by simpa using h2⟩
      · rintro (⟨bs, h1, h2⟩ | ⟨h1, _⟩)
        · cases h1
          exact ⟨_, _, (eq_eval hu hs eval_quote).2 ⟨rfl, rfl⟩, .inl ⟨by simp [hv], by simpa using h2⟩⟩
        · cases h1
    · rw [if_neg hv]
      constructor
      · rintro ⟨u, w1, h1, h2⟩
        obtain ⟨rfl, rfl⟩ := (eq_eval hu hs eval_quote).1 h1
        simp [hv] at h2
        exact .inr ⟨rfl, (eval_call0 hc).1 h2⟩
      · rintro (⟨bs, h1, h2⟩ | ⟨_, h2⟩)
        · cases h1
        · exact ⟨_, _, (eq_eval hu hs eval_quote).2 ⟨rfl, rfl⟩, .inr ⟨by simp [hv], (eval_call0 hc).2 h2⟩⟩
  | .var x, s, v, env, hu, hs, hc, _, _, _, body, r, w' => by
    simp only [matchC, Pat.bind]
    rw [eval_bind]
    constructor
    · rintro ⟨u, w1, h1, h2⟩
      obtain ⟨rfl, rfl⟩ := (hs.eval hu).1 h1
      exact .inl ⟨_, rfl, h2⟩
    · rintro (⟨bs, h1, h2⟩ | ⟨h1, _⟩)
      · cases h1
        exact ⟨_, _, (hs.eval hu).2 ⟨rfl, rfl⟩, h2⟩
      · cases h1
  | .cons a d, s, v, env, hu, hs, hc, hd, hp, hn, body, r, w' => by
    have hva : ∀ x ∈ a.vars, x ∈ (Pat.cons a d).vars := fun x hx => by simp [Pat.vars, hx]
    have hvd : ∀ x ∈ d.vars, x ∈ (Pat.cons a d).vars := fun x hx => by simp [Pat.vars, hx]
    -- both components, given settled expressions for them
    have both : ∀ (s1 s2 : Core) (x y : Val), v = .cons x y → Settled env w g s1 x → Settled env w g s2 y →
        (∀ z ∈ (Pat.cons a d).vars, z ∉ s1.fv) → (∀ z ∈ (Pat.cons a d).vars, z ∉ s2.fv) →
        (Eval E env w (matchC a s1 (matchC d s2 body (.gen n)) (.gen n)) r w' ↔
          (∃ bs, (Pat.cons a d).bind v = some bs ∧ Eval E (bs.reverse ++ env) w body r w') ∨
          ((Pat.cons a d).bind v = none ∧ Eval E cenv w more r w')) := by
      intro s1 s2 x y hv h1 h2 hf1 hf2
      subst hv
      rw [match_eval a s1 x env hu h1 hc (fun z hz => hf1 z (hva z hz)) (fun z hz => hp z (hva z hz))
        (fun hz => hn (hva _ hz))]
      simp only [Pat.bind]
      cases ha : a.bind x with
      | none => simp
      | some bs1 =>
        have hnames := bind_names a x bs1 ha
        have hn1 : ∀ z, (z ∉ a.vars) → find z (bs1.reverse ++ env) = find z env := fun z hz =>
          find_ext fun b hb e => hz (e ▸ hnames b (by simpa using hb))
        have ih := match_eval d s2 y (bs1.reverse ++ env)
          (fun q hq => by
            rw [hn1 _ fun hm => hp _ (hva _ hm) (List.mem_map.2 ⟨q, hq, rfl⟩)]; exact hu q hq)
          (h2.extend fun b hb hm => hf2 b.1 (hva _ (hnames b (by simpa using hb))) hm)
          (by rw [hn1 _ fun hm => hn (hva _ hm)]; exact hc)
          (fun z hz => hf2 z (hvd z hz)) (fun z hz => hp z (hvd z hz)) (fun hz => hn (hvd _ hz)) body r w'
        cases hb : d.bind y with
        | none => simp [ih, hb]
        | some bs2 => simp [ih, hb]
    -- a pair is built or taken apart
    have test : (∀ a' b' : Core, s ≠ consC a' b') →
        (Eval E env w (.ite (isConsC s) (matchC a (carC s) (matchC d (cdrC s) body (.gen n)) (.gen n)) (.app (.var (.gen n)) [])) r w' ↔
          (∃ bs, (Pat.cons a d).bind v = some bs ∧ Eval E (bs.reverse ++ env) w body r w') ∨
          ((Pat.cons a d).bind v = none ∧ Eval E cenv w more r w')) := by
      intro _
      rw [eval_ite]
      by_cases hv : ∃ x y, v = .cons x y
      · obtain ⟨x, y, rfl⟩ := hv
        rw [← both (carC s) (cdrC s) x y rfl (.car hs) (.cdr hs)
          (fun z hz hm => by
            simp [carC, Core.fv, Core.fvs] at hm
            rcases hm with rfl | hm
            · exact hp _ hz (by simp)
            · exact hd z hz hm)
          (fun z hz hm => by
            simp [cdrC, Core.fv, Core.fvs] at hm
            rcases hm with rfl | hm
            · exact hp _ hz (by simp)
            · exact hd z hz hm)]
        constructor
        · rintro ⟨u, w1, h1, h2⟩
          obtain ⟨rfl, rfl⟩ := (isCons_eval hu hs).1 h1
          simpa [isPair] using h2
        · intro h
          exact ⟨_, _, (isCons_eval hu hs).2 ⟨rfl, rfl⟩, .inl ⟨rfl, h⟩⟩
      · have hb : (Pat.cons a d).bind v = none := by
          cases v with
          | cons x y => exact absurd ⟨x, y, rfl⟩ hv
          | _ => rfl
        have ht : isPair v = false := by
          cases v with
          | cons x y => exact absurd ⟨x, y, rfl⟩ hv
          | _ => rfl
        rw [hb]
        constructor
        · rintro ⟨u, w1, h1, h2⟩
          obtain ⟨rfl, rfl⟩ := (isCons_eval hu hs).1 h1
          simp [ht] at h2
          exact .inr ⟨rfl, (eval_call0 hc).1 h2⟩
        · rintro (⟨bs, h1, _⟩ | ⟨_, h2⟩)
          · cases h1
          · exact ⟨_, _, (isCons_eval hu hs).2 ⟨rfl, rfl⟩, .inr ⟨by simp [ht], (eval_call0 hc).2 h2⟩⟩
    cases hs with
    | @cons s1 s2 x y h1 h2 =>
      exact both s1 s2 x y rfl h1 h2 (fun z hz hm => hd z hz (by simp [consC, Core.fv, Core.fvs, hm]))
        (fun z hz hm => hd z hz (by simp [consC, Core.fv, Core.fvs, hm]))
    | «local» hx => exact test (by simp [consC])
    | global hg hx hw => exact test (by simp [consC])
    | lit c => exact test (by simp [consC])
    | car h => exact test (by simp [consC, carC])
    | cdr h => exact test (by simp [consC, cdrC])

end Cora.Macro
