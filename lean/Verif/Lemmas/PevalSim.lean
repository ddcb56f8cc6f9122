import Verif.Lemmas.PevalRel
/-
One layer of simplification keeps the behaviour of programs.
-/
open Spec.Lang
namespace Cora.Peval
variable {W : Type} {E : Ext W}

/-! ### primitives -/

/-- a result of the source is matched by one of the simplified program -/
def Sim (E : Ext W) (o o' : Option (Val × World W)) : Prop :=
  ∀ v w1, o = some (v, w1) → ∃ v' w1', o' = some (v', w1') ∧ VRel E v v' ∧ SameWorld (VRel E) w1 w1'

theorem Sim.none {o : Option (Val × World W)} : Sim E none o := fun _ _ h => by cases h

theorem Sim.some {v v' : Val} {w w' : World W} (h : VRel E v v') (hw : SameWorld (VRel E) w w') :
    Sim E (some (v, w)) (some (v', w')) := fun _ _ e => by cases e; exact ⟨v', w', rfl, h, hw⟩

theorem outside_sim (hE : E.BlackBox) {p : String} {us us' : List Val} {w w' : World W} (h : VRels E us us')
    (hw : SameWorld (VRel E) w w') : Sim E (outside E p us w) (outside E p us' w') := by
  intro v w1 h1
  simp only [outside, Option.map_eq_some_iff] at h1
  obtain ⟨⟨a, r⟩, h1, h2⟩ := h1
  cases h2
  obtain ⟨v', h3, h4⟩ := hE.prim _ vrel_likeness p us us' w.rest a r (vrels_each h) h1
  refine ⟨v', { w' with rest := r }, ?_, h4, rfl, hw.unset, hw.globals⟩
  simp only [outside]
  rw [← hw.rest, h3]
  rfl

theorem set_same {w w' : World W} {x u v} (h : VRel E u v) (hw : SameWorld (VRel E) w w') :
    SameWorld (VRel E) (w.set x u) (w'.set x v) := by
  refine ⟨hw.rest, fun y => ?_, fun y a => ?_⟩
  · simp only [World.set]
    split
    · intro h; cases h
    · exact hw.unset y
  · simp only [World.set]
    split
    · intro h1; cases h1; exact ⟨v, rfl, h⟩
    · exact hw.globals y a

theorem primApply_other (E : Ext W) {p : String} {args : List Val} {w : World W}
    (h : p ∉ ["set", "car", "cdr", "cons", "cons?", "=", "not", "symbol?", "integer?", "string?"]) :
    primApply E p args w = outside E p args w := by
  simp only [List.mem_cons, List.not_mem_nil, or_false, not_or] at h
  unfold primApply
  split <;> simp_all

theorem special_cases {p : String}
    (hp : ¬ p ∉ ["set", "car", "cdr", "cons", "cons?", "=", "not", "symbol?", "integer?", "string?"]) :
    p = "set" ∨ p = "car" ∨ p = "cdr" ∨ p = "cons" ∨ p = "cons?" ∨ p = "=" ∨ p = "not" ∨ p = "symbol?" ∨ p = "integer?" ∨
      p = "string?" := by
  simpa only [Classical.not_not, List.mem_cons, List.not_mem_nil, or_false] using hp

theorem prim_sim1 (hE : E.BlackBox) {p u v} {w w' : World W} (h1 : VRel E u v) (hw : SameWorld (VRel E) w w')
    (hp : p ∈ ["car", "cdr", "cons?", "not", "symbol?", "integer?", "string?"]) :
    Sim E (primApply E p [u] w) (primApply E p [v] w') := by
  simp only [List.mem_cons, List.not_mem_nil, or_false] at hp
  rcases hp with rfl | rfl | rfl | rfl | rfl | rfl | rfl <;> cases h1 <;> simp only [primApply] <;>
    first
    | exact .none
    | exact .some (.bool _) hw
    | exact .some (by assumption) hw
    | (refine outside_sim hE (.cons ?_ .nil) hw; constructor <;> assumption)
    | (refine outside_sim hE (.cons ?_ .nil) hw; apply VRel.clo <;> assumption)

theorem prim_sim (hE : E.BlackBox) {p us us'} {w w' : World W} (hn : primArity p = some us.length) (h : VRels E us us')
    (hw : SameWorld (VRel E) w w') : Sim E (primApply E p us w) (primApply E p us' w') := by
  by_cases hp : p ∉ ["set", "car", "cdr", "cons", "cons?", "=", "not", "symbol?", "integer?", "string?"]
  · rw [primApply_other E hp, primApply_other E hp]
    exact outside_sim hE h hw
  · by_cases h1 : p ∈ ["car", "cdr", "cons?", "not", "symbol?", "integer?", "string?"]
    · have hl : us.length = 1 := by
        simp only [List.mem_cons, List.not_mem_nil, or_false] at h1
        rcases h1 with rfl | rfl | rfl | rfl | rfl | rfl | rfl <;> simp [primArity] at hn <;> omega
      rcases h with _ | ⟨h2, h⟩
      · simp at hl
      · rcases h with _ | ⟨h3, h⟩
        · exact prim_sim1 hE h2 hw h1
        · simp at hl
    · have hl : us.length = 2 := by
        rcases special_cases hp with rfl | rfl | rfl | rfl | rfl | rfl | rfl | rfl | rfl | rfl <;>
          first
          | exact absurd (by decide) h1
          | (simp [primArity] at hn; omega)
      rcases h with _ | ⟨h2, h⟩
      · simp at hl
      · rcases h with _ | ⟨h3, h⟩
        · simp at hl
        · rcases h with _ | ⟨h4, h⟩
          · rcases special_cases hp with rfl | rfl | rfl | rfl | rfl | rfl | rfl | rfl | rfl | rfl <;>
              first
              | exact absurd (by decide) h1
              | skip
            · cases h2 <;> simp only [primApply] <;>
                first
                | exact .none
                | skip
              exact .some h3 (set_same h3 hw)
            · simp only [primApply]; exact .some (.cons h2 h3) hw
            · simp only [primApply, vrel_datum h2, vrel_datum h3]
              rename_i v _ v2
              cases v.datum <;> cases v2.datum
              · exact outside_sim hE (.cons h2 (.cons h3 .nil)) hw
              · exact .some (.bool _) hw
              · exact .some (.bool _) hw
              · exact .some (.bool _) hw
          · simp at hl

/-! ### static forms -/

/-- the variables `xs` are bound exactly if they are listed -/
def Scoped (Γ : List Sym) (xs : List Sym) (env : Env) : Prop := ∀ x ∈ xs, find x env = none ↔ x ∉ Γ

theorem primOf_free {Γ : List Sym} {p : String} {env : Env} (h : Scoped Γ [.named p] env) (hp : .named p ∉ Γ)
    (ha : (primArity p).isSome = true) : (Core.var (.named p)).primOf env = some p := by
  have := (h (.named p) (by simp)).2 hp
  simp [Core.primOf, this, ha]

theorem scoped_mono {Γ xs ys : List Sym} {env : Env} (h : Scoped Γ xs env) (hs : ∀ x ∈ ys, x ∈ xs) : Scoped Γ ys env :=
  fun x hx => h x (hs x hx)

theorem eval_cons {Γ : List Sym} {env : Env} {w w' : World W} {v : Val} {a d : Core} (h : Scoped Γ [.named "cons"] env)
    (hp : .named "cons" ∉ Γ) :
    Eval E env w (call "cons" [a, d]) v w' ↔
      ∃ va vd w1, Eval E env w a va w1 ∧ Eval E env w1 d vd w' ∧ v = .cons va vd := by
  rw [eval_prim_exact (primOf_free h hp rfl) rfl]
  constructor
  · rintro ⟨vs, w1, h1, h2⟩
    obtain ⟨va, vs1, w2, rfl, h3, h4⟩ := evalArgs_cons.1 h1
    obtain ⟨vd, vs2, w3, rfl, h5, h6⟩ := evalArgs_cons.1 h4
    obtain ⟨rfl, rfl⟩ := evalArgs_nil.1 h6
    simp only [primApply] at h2
    cases h2
    exact ⟨va, vd, w2, h3, h5, rfl⟩
  · rintro ⟨va, vd, w1, h1, h2, rfl⟩
    exact ⟨[va, vd], w', .cons _ _ _ _ _ _ _ _ h1 (.cons _ _ _ _ _ _ _ _ h2 (.nil ..)), by simp only [primApply]⟩

theorem static_eval {Γ : List Sym} {s : Core} (hs : Static Γ s) : ∀ {env : Env}, Scoped Γ s.fv env →
    ∃ u, ∀ w : World W, Eval E env w s u w := by
  induction hs with
  | lit c => intro env _; exact ⟨_, fun w => .lit ..⟩
  | quote d => intro env _; exact ⟨_, fun w => .quote ..⟩
  | lam ps b => intro env _; exact ⟨_, fun w => .lam ..⟩
  | var x hx =>
    intro env h
    have := h x (by simp [Core.fv])
    cases hf : find x env with
    | none => exact absurd hx (this.1 hf)
    | some u => exact ⟨u, fun w => .local _ _ _ _ hf⟩
  | cons a d hc ha hd iha ihd =>
    intro env h
    obtain ⟨ua, h1⟩ := iha (scoped_mono h fun x hx => by simp [Core.fv, Core.fvs, hx])
    obtain ⟨ud, h2⟩ := ihd (scoped_mono h fun x hx => by simp [Core.fv, Core.fvs, hx])
    exact ⟨.cons ua ud, fun w => (eval_cons (scoped_mono h fun x hx => by simp [Core.fv] at hx ⊢; exact .inl hx) hc).2
      ⟨ua, ud, w, h1 w, h2 w, rfl⟩⟩

/-- a static form whose evaluation is given -/
theorem static_known {Γ : List Sym} {s : Core} (hs : Static Γ s) {env : Env} (hsc : Scoped Γ s.fv env) {w w1 : World W} {u : Val}
    (h : Eval E env w s u w1) : w1 = w ∧ ∀ w2, Eval E env w2 s u w2 := by
  obtain ⟨v, hv⟩ := static_eval (E := E) hs hsc
  obtain ⟨rfl, rfl⟩ := eval_det h (hv w)
  exact ⟨rfl, hv⟩

theorem ERel.scoped {Γ xs env env' g} (h : ERel E Γ [] xs env env' g) : Scoped Γ xs env' := fun x hx => by
  cases hf : find x env with
  | none =>
    have := (h.scope x hx).1 hf
    simp [this, (h.unbound x hx hf).2]
  | some v =>
    have h1 := (h.target x hx v hf).1 rfl
    have h2 : ¬ x ∉ Γ := fun hn => by rw [(h.scope x hx).2 hn] at hf; cases hf
    simp [h1, Classical.not_not.mp h2]

/-- nothing that can be replaced by a static form is a global primitive -/
theorem static_not_prim {env : Env} {s : Core} {u : Val} (w0 : World W) (h : ∀ w, Eval E env w s u w) : s.primOf env = none := by
  cases hp : s.primOf env with
  | none => rfl
  | some p =>
    unfold Core.primOf at hp
    split at hp
    · rename_i q
      split at hp
      · rename_i hq
        have := h { w0 with globals := fun _ => none }
        cases this with
        | «local» _ _ _ _ h1 => rw [hq.1] at h1; cases h1
        | global _ _ _ _ _ h1 => cases h1
      · cases hp
    · cases hp

theorem lookup_shrink (x : Sym) (ps : List Sym) (δ : Sub) :
    lookup x (shrink ps δ) = if x ∈ ps then none else lookup x δ := by
  induction δ with
  | nil => simp [shrink, lookup]
  | cons p r ih =>
    obtain ⟨y, s⟩ := p
    unfold shrink at ih ⊢
    by_cases hy : y ∈ ps
    · rw [List.filter_cons_of_neg (by simp [hy]), ih]
      by_cases hx : x ∈ ps
      · simp [hx]
      · have : y ≠ x := fun e => hx (e ▸ hy)
        simp [hx, lookup, this]
    · rw [List.filter_cons_of_pos (by simp [hy])]
      simp only [lookup, ih]
      by_cases hxy : y = x
      · subst hxy; simp [hy]
      · simp [hxy]

/-! ### entering scopes -/

theorem ERel.bind {Γ δ x xs env env' g u u'} (h : ERel E Γ δ (xs.filter fun y => decide (y ≠ x)) env env' g)
    (hf : ∀ k s, lookup k δ = some s → k ≠ x → x ∉ s.fv) (hu : VRel E u u') :
    ERel E (x :: Γ) (shrink [x] δ) xs ((x, u) :: env) ((x, u') :: env') (fun y => if y = x then u' else g y) := by
  have hm : ∀ y ∈ xs, y ≠ x → y ∈ xs.filter fun y => decide (y ≠ x) := fun y h1 h2 => by simp [h1, h2]
  refine ⟨fun y hy => ?_, fun y hy => ?_, fun y hy v => ?_, fun y hy v => ?_⟩
  · simp only [find]
    by_cases hxy : x = y
    · simp [hxy]
    · rw [if_neg hxy, h.scope y (hm y hy (Ne.symm hxy))]
      simp [Ne.symm hxy]
  · simp only [find, lookup_shrink]
    by_cases hxy : x = y
    · simp [hxy]
    · rw [if_neg hxy]
      intro h1
      have := h.unbound y (hm y hy (Ne.symm hxy)) h1
      simp [hxy, Ne.symm hxy, this.1, this.2]
  · simp only [find]
    by_cases hxy : x = y
    · subst hxy; simp only [if_true]; intro h1; cases h1; exact hu
    · rw [if_neg hxy, if_neg (Ne.symm hxy)]
      exact h.value y (hm y hy (Ne.symm hxy)) v
  · simp only [find]
    by_cases hxy : x = y
    · subst hxy; simp only [if_true]; intro h1; cases h1
      exact ⟨fun _ => by simp [find], fun s hs => by simp [lookup_shrink] at hs⟩
    · rw [if_neg hxy, if_neg (Ne.symm hxy)]
      intro h1
      have h2 := h.target y (hm y hy (Ne.symm hxy)) v h1
      refine ⟨fun h3 => ?_, fun s h3 w => ?_⟩
      · simp only [find]; rw [if_neg hxy]
        exact h2.1 (by simpa [lookup_shrink, Ne.symm hxy] using h3)
      · have h4 : lookup y δ = some s := by simpa [lookup_shrink, Ne.symm hxy] using h3
        refine (eval_congr fun z hz => ?_).1 (h2.2 s h4 w)
        have : x ≠ z := fun e => hf y s h4 (Ne.symm hxy) (e ▸ hz)
        simp [find, this]

theorem ERel.enter {Γ δ ps b env env' g us us'} (h : ERel E Γ δ (Core.lam ps b).fv env env' g)
    (hf : ∀ k s, lookup k δ = some s → k ∉ ps ∧ ∀ p ∈ ps, p ∉ s.fv) (hn : us.length = ps.length) (hu : VRels E us us') :
    ∃ g', ERel E (ps ++ Γ) δ b.fv ((ps.zip us).reverse ++ env) ((ps.zip us').reverse ++ env') g' := by
  have hm : ∀ y ∈ b.fv, y ∉ ps → y ∈ (Core.lam ps b).fv := fun y h1 h2 => by simp [Core.fv, h1, h2]
  have hz := vrels_zip hn hu
  refine ⟨fun y => ((find y (ps.zip us').reverse).getD (g y)), fun y hy => ?_, fun y hy => ?_, fun y hy v => ?_, fun y hy v => ?_⟩
  all_goals
    rcases hz y with ⟨h1, h2, h3⟩ | ⟨h1, a, a', h2, h3, h4⟩
    all_goals simp only [find_append, h2, h3, Option.some_or, Option.none_or, Option.getD_none, Option.getD_some]
  · rw [h.scope y (hm y hy h1)]; simp [h1]
  · simp [h1]
  · exact h.unbound y (hm y hy h1)
  · intro h; cases h
  · exact h.value y (hm y hy h1) v
  · intro h; cases h; exact h4
  · intro h5
    have h6 := h.target y (hm y hy h1) v h5
    refine ⟨fun h7 => by simp [find_append, h3, h6.1 h7], fun s h7 w => ?_⟩
    refine (eval_congr fun z hzz => ?_).1 (h6.2 s h7 w)
    have : z ∉ ps := fun e => (hf y s h7).2 z e hzz
    rcases hz z with ⟨_, _, h8⟩ | ⟨h8, _⟩
    · simp [find_append, h8]
    · exact absurd h8 this
  · intro h5; cases h5
    refine ⟨fun _ => by simp [find_append, h3], fun s h7 => absurd h1 (hf y s h7).1⟩

/-! ### calls -/

/-- calls with related results: the same function with the same arguments, or a function with one of its arguments pulled inside -/
inductive ARel (E : Ext W) : Val → List Val → Val → List Val → Prop where
  | same {f args f' args'} : VRel E f f' → VRels E args args' → ARel E f args f' args'
  | pulled {p1 p2 : List Sym} {p b c env env1 u vs1 vs2 vs1' vs2'} (env' : Env) (g : Sym → Val) (Γ : List Sym) (u' : Val) :
      ERel E Γ [] (Core.lam (p1 ++ p :: p2) b).fv env env' g →
      (∀ x ∈ (Core.lam (p1 ++ p2) (.bind p c b)).fv, find x env1 = find x env') →
      (∀ w, Eval E env' w c u' w) → (∀ y ∈ c.fv, y ∉ p1 ++ p2) → p ∉ p2 →
      vs1.length = p1.length → p2.length ≤ vs2.length → VRels E vs1 vs1' → VRel E u u' → VRels E vs2 vs2' →
      ARel E (.clo (p1 ++ p :: p2) b env) (vs1 ++ u :: vs2) (.clo (p1 ++ p2) (.bind p c b) env1) (vs1' ++ vs2')

theorem find_zip_none {x : Sym} : ∀ {ps : List Sym} {vs : List Val}, x ∉ ps → find x (ps.zip vs).reverse = none
  | [], _, _ => rfl
  | p :: ps, [], _ => rfl
  | p :: ps, v :: vs, h => by
    simp only [List.mem_cons, not_or] at h
    simp only [List.zip_cons_cons, List.reverse_cons, find_append, find_zip_none h.2]
    simp [find, Ne.symm h.1]

theorem find_pulled {p1 p2 : List Sym} {p : Sym} {a1 a2 : List Val} {u : Val} (h1 : a1.length = p1.length) (hp : p ∉ p2)
    (x : Sym) (env : Env) :
    find x (((p1 ++ p :: p2).zip (a1 ++ u :: a2)).reverse ++ env) =
      find x ((p, u) :: (((p1 ++ p2).zip (a1 ++ a2)).reverse ++ env)) := by
  rw [List.zip_append h1.symm, List.zip_append h1.symm, List.zip_cons_cons]
  simp only [List.reverse_append, List.reverse_cons, find_append, find]
  by_cases hx : p = x
  · subst hx
    simp [find_zip_none hp]
  · simp [hx]

theorem vrels_nil {us : List Val} (h : VRels E [] us) : us = [] := by cases h; rfl

/-! ### the simulation -/

def S1 (E : Ext W) (env : Env) (w : World W) (e : Core) (v : Val) (w1 : World W) : Prop :=
  ∀ Γ δ e' env' g w', T Γ δ e e' → ERel E Γ δ e.fv env env' g → SameWorld (VRel E) w w' →
    ∃ v' w1', Eval E env' w' e' v' w1' ∧ VRel E v v' ∧ SameWorld (VRel E) w1 w1'

def S2 (E : Ext W) (env : Env) (w : World W) (es : List Core) (vs : List Val) (w1 : World W) : Prop :=
  ∀ Γ δ es' env' g w', Ts Γ δ es es' → ERel E Γ δ (Core.fvs es) env env' g → SameWorld (VRel E) w w' →
    ∃ vs' w1', EvalArgs E env' w' es' vs' w1' ∧ VRels E vs vs' ∧ SameWorld (VRel E) w1 w1'

def S3 (E : Ext W) (w : World W) (f : Val) (args : List Val) (v : Val) (w1 : World W) : Prop :=
  ∀ f' args' w', ARel E f args f' args' → SameWorld (VRel E) w w' →
    ∃ v' w1', Apply E w' f' args' v' w1' ∧ VRel E v v' ∧ SameWorld (VRel E) w1 w1'

theorem sim_clo (w : World W) (ps : List Sym) (b : Core) (env : Env) (args : List Val) (v : Val) (w1 : World W)
    (hn : args.length = ps.length) (ih : S1 E ((ps.zip args).reverse ++ env) w b v w1) :
    S3 E w (.clo ps b env) args v w1 := by
  intro f' args' w' h hw
  generalize hf : Val.clo ps b env = f at h
  cases h with
  | same h1 h2 =>
    subst hf
    cases h1 with
    | @clo _ _ b' _ env1 env' g Γ δ hT hfr hag hsc hun hva hta =>
      obtain ⟨g', hr⟩ := ERel.enter (b := b) ⟨hsc, hun, hva, hta⟩ hfr hn h2
      obtain ⟨v', w1', h3, h4, h5⟩ := ih _ _ _ _ _ _ hT hr hw
      refine ⟨v', w1', .clo _ _ _ _ _ _ _ (by rw [← vrels_length h2, hn]) ?_, h4, h5⟩
      refine (eval_congr fun x hx => ?_).1 h3
      by_cases hp : x ∈ ps
      · rcases vrels_zip hn h2 x with ⟨h6, _⟩ | ⟨_, _, _, _, h6, _⟩
        · exact absurd hp h6
        · simp [find_append, h6]
      · rw [find_append, find_append, hag x (by simp [Core.fv, hx, hp])]
  | @pulled p1 p2 p b2 c env2 env1 u vs1 vs2 vs1' vs2' env' g Γ u' hr hag hc hfc hp hl1 hl2 hv1 hu hv2 =>
    cases hf
    have hl : vs2.length = p2.length := by simp at hn; omega
    obtain ⟨g', hr'⟩ := ERel.enter hr (fun _ _ h => by cases h) hn (vrels_append hv1 (.cons hu hv2))
    obtain ⟨v', w1', h3, h4, h5⟩ := ih _ _ _ _ _ _ (T.refl _ _) hr' hw
    have hl1' := vrels_length hv1
    refine ⟨v', w1', .clo _ _ _ _ _ _ _ (by have := vrels_length hv2; simp; omega) ?_, h4, h5⟩
    refine .bind _ _ _ _ _ u' _ w' _ ?_ ?_
    · refine (eval_congr fun x hx => ?_).1 (hc w')
      rw [find_append, find_zip_none (hfc x hx)]
      have := hag x (by
        have := hfc x hx
        simp only [Core.fv, List.mem_filter, List.mem_append, hx, true_or, true_and]
        simpa using this)
      simp [this]
    · refine (eval_congr fun x hx => ?_).1 h3
      rw [find_pulled (by omega) hp]
      simp only [find]
      by_cases hpx : p = x
      · simp [hpx]
      · rw [if_neg hpx, if_neg hpx, find_append, find_append]
        by_cases hxp : x ∈ p1 ++ p2
        · have : (find x ((p1 ++ p2).zip (vs1' ++ vs2')).reverse).isSome = true := by
            rcases vrels_zip (ps := p1 ++ p2) (us := vs1 ++ vs2) (by simp; omega) (vrels_append hv1 hv2) x with
              ⟨h6, _⟩ | ⟨_, _, _, _, h6, _⟩
            · exact absurd hxp h6
            · simp [h6]
          cases h7 : find x ((p1 ++ p2).zip (vs1' ++ vs2')).reverse with
          | none => rw [h7] at this; cases this
          | some _ => rfl
        · rw [hag x (by
            simp only [Core.fv, List.mem_filter, List.mem_append, hx]
            simp only [List.mem_append] at hxp
            simp [hxp, Ne.symm hpx])]

theorem sim_more (w : World W) (f : Val) (n : Nat) (args : List Val) (g v : Val) (w1 w2 : World W) (ha : f.arity = some n)
    (hn : n < args.length) (ih1 : S3 E w f (args.take n) g w1) (ih2 : S3 E w1 g (args.drop n) v w2) : S3 E w f args v w2 := by
  intro f' args' w' h hw
  cases h with
  | same h1 h2 =>
    obtain ⟨g', w1', h3, h4, h5⟩ := ih1 _ _ _ (.same h1 (vrels_take h2 n)) hw
    obtain ⟨v', w2', h6, h7, h8⟩ := ih2 _ _ _ (.same h4 (vrels_drop h2 n)) h5
    exact ⟨v', w2', .more _ _ n _ _ _ _ _ (by rw [← vrel_arity h1, ha]) (by rw [← vrels_length h2]; exact hn) h3 h6, h7, h8⟩
  | @pulled p1 p2 p b2 c env2 env1 u vs1 vs2 vs1' vs2' env' gg Γ u' hr hag hc hfc hp hl1 hl2 hv1 hu hv2 =>
    simp only [Val.arity, Option.some.injEq] at ha
    subst ha
    have hl1' := vrels_length hv1
    have hl2' := vrels_length hv2
    have e1 : (vs1 ++ u :: vs2).take (p1 ++ p :: p2).length = vs1 ++ u :: vs2.take p2.length := by
      rw [List.take_append, List.take_of_length_le (by simp; omega)]
      have : (p1 ++ p :: p2).length - vs1.length = p2.length + 1 := by simp; omega
      rw [this, List.take_succ_cons]
    have e2 : (vs1 ++ u :: vs2).drop (p1 ++ p :: p2).length = vs2.drop p2.length := by
      rw [List.drop_append, List.drop_of_length_le (by simp; omega)]
      have : (p1 ++ p :: p2).length - vs1.length = p2.length + 1 := by simp; omega
      rw [this, List.drop_succ_cons]; rfl
    have e3 : (vs1' ++ vs2').take (p1 ++ p2).length = vs1' ++ vs2'.take p2.length := by
      rw [List.take_append, List.take_of_length_le (by simp; omega)]
      have : (p1 ++ p2).length - vs1'.length = p2.length := by simp; omega
      rw [this]
    have e4 : (vs1' ++ vs2').drop (p1 ++ p2).length = vs2'.drop p2.length := by
      rw [List.drop_append, List.drop_of_length_le (by simp; omega)]
      have : (p1 ++ p2).length - vs1'.length = p2.length := by simp; omega
      rw [this]; rfl
    rw [e1] at ih1
    rw [e2] at ih2
    obtain ⟨g', w1', h3, h4, h5⟩ := ih1 _ _ _ (.pulled env' gg Γ u' hr hag hc hfc hp hl1 (by simp; omega) hv1 hu
      (vrels_take hv2 p2.length)) hw
    obtain ⟨v', w2', h6, h7, h8⟩ := ih2 _ _ _ (.same h4 (vrels_drop hv2 p2.length)) h5
    refine ⟨v', w2', .more _ _ (p1 ++ p2).length _ _ _ _ _ rfl (by simp at hn ⊢; omega) (by rw [e3]; exact h3)
      (by rw [e4]; exact h6), h7, h8⟩

end Cora.Peval
