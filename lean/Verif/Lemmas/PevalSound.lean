import Verif.Lemmas.PevalSim
/-
The simulation for all forms, and for sequences of layers.
-/
open Spec.Lang
namespace Cora.Peval
variable {W : Type} {E : Ext W}

theorem evalArgs_append {env : Env} : ∀ {a1 a2 : List Core} {w w' : World W} {vs : List Val},
    EvalArgs E env w (a1 ++ a2) vs w' ↔
      ∃ v1 v2 w1, vs = v1 ++ v2 ∧ EvalArgs E env w a1 v1 w1 ∧ EvalArgs E env w1 a2 v2 w'
  | [], a2, w, w', vs => by
    constructor
    · intro h; exact ⟨[], vs, w, rfl, .nil .., h⟩
    · rintro ⟨v1, v2, w1, rfl, h1, h2⟩
      obtain ⟨rfl, rfl⟩ := evalArgs_nil.1 h1
      exact h2
  | e :: a1, a2, w, w', vs => by
    constructor
    · intro h
      obtain ⟨u, us, w1, rfl, h1, h2⟩ := evalArgs_cons.1 h
      obtain ⟨v1, v2, w2, rfl, h3, h4⟩ := evalArgs_append.1 h2
      exact ⟨u :: v1, v2, w2, rfl, .cons _ _ _ _ _ _ _ _ h1 h3, h4⟩
    · rintro ⟨v1, v2, w1, rfl, h1, h2⟩
      obtain ⟨u, us, w2, rfl, h3, h4⟩ := evalArgs_cons.1 h1
      exact .cons _ _ _ _ _ _ _ _ h3 (evalArgs_append.2 ⟨us, v2, w1, rfl, h4, h2⟩)

theorem vrels_split_right : ∀ {us us' ws : List Val}, VRels E ws (us ++ us') →
    ∃ vs vs', ws = vs ++ vs' ∧ VRels E vs us ∧ VRels E vs' us'
  | [], _, ws, h => ⟨[], ws, rfl, .nil, h⟩
  | _ :: _, _, _, h => by
    cases h with
    | cons h1 h2 =>
      obtain ⟨vs, vs', h3, h4, h5⟩ := vrels_split_right h2
      exact ⟨_ :: vs, vs', by rw [h3]; rfl, .cons h1 h4, h5⟩

theorem erel_drop {Γ : List Sym} {x : Sym} {xs : List Sym} {env env' : Env} {g : Sym → Val} {u : Val} (hx : x ∉ xs)
    (h : ERel E Γ [] (xs.filter fun y => decide (y ≠ x)) env env' g) : ERel E Γ [] xs ((x, u) :: env) env' g := by
  have hm : ∀ y ∈ xs, x ≠ y ∧ y ∈ xs.filter fun y => decide (y ≠ x) := fun y h1 => by
    have : y ≠ x := fun e => hx (e ▸ h1)
    exact ⟨Ne.symm this, by simp [h1, this]⟩
  refine ⟨fun y hy => ?_, fun y hy => ?_, fun y hy => ?_, fun y hy => ?_⟩
  all_goals
    obtain ⟨h1, h2⟩ := hm y hy
    simp only [find, if_neg h1]
  · exact h.scope y h2
  · exact h.unbound y h2
  · exact h.value y h2
  · exact h.target y h2

theorem sim_bind (env : Env) (w : World W) (x : Sym) (e b : Core) (u v : Val) (w1 w2 : World W) (he : Eval E env w e u w1)
    (ih1 : S1 E env w e u w1) (ih2 : S1 E ((x, u) :: env) w1 b v w2) : S1 E env w (.bind x e b) v w2 := by
  intro Γ δ e' env' g w' hT hr hw
  have hre : ERel E Γ δ e.fv env env' g := hr.mono fun y hy => by simp [Core.fv, hy]
  have hrb : ERel E Γ δ (b.fv.filter fun y => decide (y ≠ x)) env env' g := hr.mono fun y hy => by
    simp only [Core.fv, List.mem_append]; exact .inr hy
  cases hT with
  | bind hf h1 h2 =>
    obtain ⟨u', w1', h3, h4, h5⟩ := ih1 _ _ _ _ _ _ h1 hre hw
    obtain ⟨v', w2', h6, h7, h8⟩ := ih2 _ _ _ _ _ _ h2 (hrb.bind hf h4) h5
    exact ⟨v', w2', .bind _ _ _ _ _ _ _ _ _ h3 h6, h7, h8⟩
  | letS hs h2 =>
    obtain ⟨u', w1', h3, h4, h5⟩ := ih1 _ _ _ _ _ _ (T.refl e Γ) hre hw
    obtain ⟨rfl, h6⟩ := static_known hs hre.scoped h3
    have hm : ∀ y ∈ b.fv, x ≠ y → y ∈ b.fv.filter fun y => decide (y ≠ x) := fun y h1 h2 => by simp [h1, Ne.symm h2]
    refine ih2 _ _ _ env' (fun y => if y = x then u' else g y) _ h2 ⟨fun y hy => ?_, fun y hy => ?_, fun y hy a => ?_, fun y hy a => ?_⟩ h5
    all_goals
      simp only [find]
      by_cases hxy : x = y
    · simp [hxy]
    · rw [if_neg hxy, hrb.scope y (hm y hy hxy)]; simp [Ne.symm hxy]
    · simp [hxy]
    · rw [if_neg hxy]
      intro h7
      exact ⟨by simp [lookup, hxy], (hrb.unbound y (hm y hy hxy) h7).2⟩
    · subst hxy; simp only [if_true]; intro h; cases h; exact h4
    · rw [if_neg hxy, if_neg (Ne.symm hxy)]; exact hrb.value y (hm y hy hxy) a
    · subst hxy; simp only [if_true]; intro h; cases h
      exact ⟨fun h => by simp [lookup] at h, fun s hs => by
        simp [lookup] at hs; subst hs; exact h6⟩
    · rw [if_neg hxy, if_neg (Ne.symm hxy)]
      intro h7
      exact ⟨fun _ => (hrb.target y (hm y hy hxy) a h7).1 rfl, fun s hs => by simp [lookup, hxy] at hs⟩
  | drop hs hx =>
    obtain ⟨rfl, _⟩ := static_known hs hre.scope he
    exact ih2 _ _ _ _ _ _ (T.refl _ Γ) (erel_drop hx hrb) hw
  | toSeq hx =>
    obtain ⟨u', w1', h3, h4, h5⟩ := ih1 _ _ _ _ _ _ (T.refl e Γ) hre hw
    obtain ⟨v', w2', h6, h7, h8⟩ := ih2 _ _ _ _ _ _ (T.refl _ Γ) (erel_drop hx hrb) h5
    exact ⟨v', w2', .seq _ _ _ _ _ _ _ _ h3 h6, h7, h8⟩

theorem sim_var_op {Γ : List Sym} {δ : Sub} {x : Sym} {f' : Core} {env env' : Env} {g : Sym → Val} (w0 : World W)
    (hT : T Γ δ (.var x) f') (hr : ERel E Γ δ [x] env env' g) : f'.primOf env' = (Core.var x).primOf env := by
  have hx : x ∈ [x] := by simp
  cases hf : find x env with
  | none =>
    obtain ⟨h1, h2⟩ := hr.unbound x hx hf
    cases hT with
    | var _ _ => exact primOf_congr fun y hy => by simp [Core.fv] at hy; subst hy; rw [hf, h2]
    | sub _ _ h => rw [h1] at h; cases h
  | some v =>
    have h0 : (Core.var x).primOf env = none := by
      cases x with
      | named p => simp [Core.primOf, hf]
      | gen n => rfl
    rw [h0]
    have ht := hr.target x hx v hf
    cases hT with
    | var _ h =>
      have := ht.1 h
      cases x with
      | named p => simp [Core.primOf, this]
      | gen n => rfl
    | sub _ _ h => exact static_not_prim w0 (ht.2 _ h)

theorem primOf_var {f : Core} {env : Env} {p : String} (h : f.primOf env = some p) :
    f = .var (.named p) ∧ find (.named p) env = none ∧ (primArity p).isSome = true := by
  unfold Core.primOf at h
  split at h
  · split at h
    · rename_i h1
      cases h
      exact ⟨rfl, h1.1, h1.2⟩
    · cases h
  · cases h

theorem args1 {env : Env} {w w' : World W} {e : Core} {vs : List Val} (h : EvalArgs E env w [e] vs w') :
    ∃ v, vs = [v] ∧ Eval E env w e v w' := by
  obtain ⟨v, r, w1, rfl, h1, h2⟩ := evalArgs_cons.1 h
  obtain ⟨rfl, rfl⟩ := evalArgs_nil.1 h2
  exact ⟨v, rfl, h1⟩

theorem args2 {env : Env} {w w' : World W} {e1 e2 : Core} {vs : List Val} (h : EvalArgs E env w [e1, e2] vs w') :
    ∃ v1 v2 w1, vs = [v1, v2] ∧ Eval E env w e1 v1 w1 ∧ Eval E env w1 e2 v2 w' := by
  obtain ⟨v, r, w1, rfl, h1, h2⟩ := evalArgs_cons.1 h
  obtain ⟨v2, rfl, h3⟩ := args1 h2
  exact ⟨v, v2, w1, rfl, h1, h3⟩

theorem vrels_one {vs : List Val} {v : Val} (h : VRels E vs [v]) : ∃ u, vs = [u] ∧ VRel E u v := by
  cases h with
  | cons h1 h2 => cases h2; exact ⟨_, rfl, h1⟩

/-- the result of a primitive that the source has called -/
theorem prim_result {p : String} {us : List Val} {w w2 : World W} {v : Val} (hn : primArity p = some us.length)
    (h : Apply E w (.prim p) us v w2) : primApply E p us w = some (v, w2) := (apply_prim_exact hn).1 h

theorem sim_prim (hE : E.BlackBox) (hA : E.Adds) (env : Env) (w : World W) (f : Core) (args : List Core) (p : String)
    (vs : List Val) (v : Val) (w1 w2 : World W)
    (hp : f.primOf env = some p) (ha : EvalArgs E env w args vs w1) (happ : Apply E w1 (.prim p) vs v w2)
    (ih1 : S2 E env w args vs w1) (ih2 : S3 E w1 (.prim p) vs v w2) : S1 E env w (.app f args) v w2 := by
  intro Γ δ e' env' g w' hT hr hw
  have hra : ERel E Γ δ (Core.fvs args) env env' g := hr.mono fun y hy => by simp [Core.fv, hy]
  have hrf : ERel E Γ δ f.fv env env' g := hr.mono fun y hy => by simp [Core.fv, hy]
  cases hT with
  | app ho hf has =>
    obtain ⟨vs', w1', h1, h2, h3⟩ := ih1 _ _ _ _ _ _ has hra hw
    obtain ⟨v', w2', h4, h5, h6⟩ := ih2 _ _ _ (.same (.prim p) h2) h3
    obtain ⟨rfl, _, _⟩ := primOf_var hp
    exact ⟨v', w2', .prim _ _ _ _ p _ _ _ _ (by rw [sim_var_op w' hf hrf, hp]) h1 h4, h5, h6⟩
  | @carS _ a d hc1 hc2 hs =>
    obtain ⟨h, _, _⟩ := primOf_var hp
    cases h
    obtain ⟨vs', w1', h1, h2, h3⟩ := ih1 _ _ _ _ _ _ (Ts.refl _ Γ) hra hw
    obtain ⟨u, rfl, h4⟩ := args1 h1
    have hsc := hra.scoped
    obtain ⟨va, vd, w3, h5, h6, rfl⟩ := (eval_cons (scoped_mono hsc fun x hx => by simp [Core.fvs, Core.fv] at hx ⊢; exact .inl hx) hc2).1 h4
    obtain ⟨rfl, _⟩ := static_known hs (scoped_mono hsc fun x hx => by simp [Core.fvs, Core.fv, hx]) h6
    obtain ⟨u0, rfl, h7⟩ := vrels_one h2
    cases h7 with
    | cons h8 h9 =>
      have := prim_result rfl happ
      simp only [primApply] at this
      cases this
      exact ⟨va, w1', h5, h8, h3⟩
  | @cdrS _ a d hc1 hc2 hs =>
    obtain ⟨h, _, _⟩ := primOf_var hp
    cases h
    obtain ⟨vs', w1', h1, h2, h3⟩ := ih1 _ _ _ _ _ _ (Ts.refl _ Γ) hra hw
    obtain ⟨u, rfl, h4⟩ := args1 h1
    have hsc := hra.scoped
    obtain ⟨va, vd, w3, h5, h6, rfl⟩ := (eval_cons (scoped_mono hsc fun x hx => by simp [Core.fvs, Core.fv] at hx ⊢; exact .inl hx) hc2).1 h4
    obtain ⟨rfl, _⟩ := static_known hs (scoped_mono hsc fun x hx => by simp [Core.fvs, Core.fv, hx]) h5
    obtain ⟨u0, rfl, h7⟩ := vrels_one h2
    cases h7 with
    | cons h8 h9 =>
      have := prim_result rfl happ
      simp only [primApply] at this
      cases this
      exact ⟨vd, w1', h6, h9, h3⟩
  | @consS _ a d hc1 hc2 hs1 hs2 =>
    obtain ⟨h, _, _⟩ := primOf_var hp
    cases h
    obtain ⟨vs', w1', h1, h2, h3⟩ := ih1 _ _ _ _ _ _ (Ts.refl _ Γ) hra hw
    obtain ⟨u, rfl, h4⟩ := args1 h1
    have hsc := hra.scoped
    obtain ⟨va, vd, w3, h5, h6, rfl⟩ := (eval_cons (scoped_mono hsc fun x hx => by simp [Core.fvs, Core.fv] at hx ⊢; exact .inl hx) hc2).1 h4
    obtain ⟨rfl, _⟩ := static_known hs1 (scoped_mono hsc fun x hx => by simp [Core.fvs, Core.fv, hx]) h5
    obtain ⟨rfl, _⟩ := static_known hs2 (scoped_mono hsc fun x hx => by simp [Core.fvs, Core.fv, hx]) h6
    obtain ⟨u0, rfl, h7⟩ := vrels_one h2
    cases h7 with
    | cons h8 h9 =>
      have := prim_result rfl happ
      simp only [primApply] at this
      cases this
      exact ⟨_, w1', .lit .., .bool true, h3⟩
  | notS hc =>
    obtain ⟨h, _, _⟩ := primOf_var hp
    cases h
    obtain ⟨u, rfl, h1⟩ := args1 ha
    obtain ⟨rfl, rfl⟩ := eval_lit.1 h1
    have := prim_result rfl happ
    simp only [Const.datum, Datum.val, primApply] at this
    cases this
    exact ⟨_, w', .lit .., .bool _, hw⟩
  | plusS hc =>
    obtain ⟨h, _, _⟩ := primOf_var hp
    cases h
    obtain ⟨u1, u2, w3, rfl, h1, h2⟩ := args2 ha
    obtain ⟨rfl, rfl⟩ := eval_lit.1 h1
    obtain ⟨rfl, rfl⟩ := eval_lit.1 h2
    have := prim_result rfl happ
    rw [primApply_other E (by decide)] at this
    simp only [Const.datum, Datum.val, outside, hA.plus, Option.map_some] at this
    cases this
    exact ⟨_, w', .lit .., .int _, hw⟩
  | minusS hc =>
    obtain ⟨h, _, _⟩ := primOf_var hp
    cases h
    obtain ⟨u1, u2, w3, rfl, h1, h2⟩ := args2 ha
    obtain ⟨rfl, rfl⟩ := eval_lit.1 h1
    obtain ⟨rfl, rfl⟩ := eval_lit.1 h2
    have := prim_result rfl happ
    rw [primApply_other E (by decide)] at this
    simp only [Const.datum, Datum.val, outside, hA.minus, Option.map_some] at this
    cases this
    exact ⟨_, w', .lit .., .int _, hw⟩
  | pull => cases hp
  | run => cases hp
  | leave => cases hp

theorem not_prim {Γ : List Sym} {p : String} {δ : Sub} {xs : List Sym} {env env' : Env} {g : Sym → Val}
    (hr : ERel E Γ δ xs env env' g) (hx : .named p ∈ xs) (h : .named p ∉ Γ) (ha : (primArity p).isSome = true)
    (hn : (Core.var (.named p)).primOf env = none) : False := by
  have := primOf_free (Γ := Γ) (p := p) (env := env) (fun y hy => by
    simp at hy; subst hy; exact hr.scope _ hx) h ha
  rw [this] at hn
  cases hn

theorem fvs_middle {c : Core} (a1 a2 : List Core) : ∀ x ∈ c.fv, x ∈ Core.fvs (a1 ++ c :: a2) := by
  intro x hx
  induction a1 with
  | nil => simp [Core.fvs, hx]
  | cons y r ih => simp [Core.fvs, ih]

theorem sim_app (env : Env) (w : World W) (f : Core) (args : List Core) (g : Val)
    (vs : List Val) (v : Val) (w1 w2 w3 : World W)
    (hp : f.primOf env = none) (hf : Eval E env w f g w1) (ha : EvalArgs E env w1 args vs w2) (happ : Apply E w2 g vs v w3)
    (ih1 : S1 E env w f g w1) (ih2 : S2 E env w1 args vs w2) (ih3 : S3 E w2 g vs v w3) : S1 E env w (.app f args) v w3 := by
  intro Γ δ e' env' gg w' hT hr hw
  have hra : ERel E Γ δ (Core.fvs args) env env' gg := hr.mono fun y hy => by simp [Core.fv, hy]
  have hrf : ERel E Γ δ f.fv env env' gg := hr.mono fun y hy => by simp [Core.fv, hy]
  cases hT with
  | @app _ _ _ _ f' _ ho hTf has =>
    obtain ⟨g', w1', h1, h2, h3⟩ := ih1 _ _ _ _ _ _ hTf hrf hw
    obtain ⟨vs', w2', h4, h5, h6⟩ := ih2 _ _ _ _ _ _ has hra h3
    obtain ⟨v', w3', h7, h8, h9⟩ := ih3 _ _ _ (.same h2 h5) h6
    refine ⟨v', w3', .app _ _ _ _ _ _ _ _ _ _ ?_ h1 h4 h7, h8, h9⟩
    rcases ho with ⟨x, rfl⟩ | ho
    · rw [sim_var_op w' hTf hrf, hp]
    · cases hq : f'.primOf env' with
      | none => rfl
      | some q =>
        obtain ⟨h10, _, h11⟩ := primOf_var hq
        rw [ho q h10] at h11
        cases h11
  | carS hc _ _ => exact (not_prim hrf (by simp [Core.fv]) hc rfl hp).elim
  | cdrS hc _ _ => exact (not_prim hrf (by simp [Core.fv]) hc rfl hp).elim
  | consS hc _ _ _ => exact (not_prim hrf (by simp [Core.fv]) hc rfl hp).elim
  | notS hc => exact (not_prim hrf (by simp [Core.fv]) hc rfl hp).elim
  | plusS hc => exact (not_prim hrf (by simp [Core.fv]) hc rfl hp).elim
  | minusS hc => exact (not_prim hrf (by simp [Core.fv]) hc rfl hp).elim
  | @pull _ p1 p2 p b a1 a2 c hs hfc hpp hl1 hl2 =>
    obtain ⟨rfl, rfl⟩ := eval_lam.1 hf
    obtain ⟨vs', w2', h4, h5, h6⟩ := ih2 _ _ _ _ _ _ (Ts.refl _ Γ) hra hw
    obtain ⟨v1', v2', w3', rfl, h7, h8⟩ := evalArgs_append.1 h4
    obtain ⟨u', v3', w4', rfl, h9, h10⟩ := evalArgs_cons.1 h8
    have hfvs : ∀ x ∈ c.fv, x ∈ Core.fvs (a1 ++ c :: a2) := fvs_middle a1 a2
    obtain ⟨rfl, h11⟩ := static_known hs (scoped_mono hra.scoped hfvs) h9
    obtain ⟨v1, v2, rfl, h12, h13⟩ := vrels_split_right h5
    cases h13 with
    | @cons u _ v3 _ h14 h15 =>
      have hl1' := vrels_length h12
      have hl3' := vrels_length h15
      have hl7 := evalArgs_length h7
      have hl10 := evalArgs_length h10
      obtain ⟨v', w5', h16, h17, h18⟩ := ih3 (.clo (p1 ++ p2) (.bind p c b) (capture (Core.lam (p1 ++ p2) (.bind p c b)).fv env'))
        (v1' ++ v3') _
        (.pulled env' gg Γ u' (hrf.mono (fun x h => h) |> fun h => ⟨fun x hx => by
            rw [find_capture, if_pos hx]; exact h.scope x hx,
            fun x hx => by rw [find_capture, if_pos hx]; exact h.unbound x hx,
            fun x hx v => by rw [find_capture, if_pos hx]; exact h.value x hx v,
            fun x hx v => by rw [find_capture, if_pos hx]; exact h.target x hx v⟩)
          (fun x hx => by rw [find_capture, if_pos hx]) h11 hfc hpp (by omega) (by omega) h12 h14 h15) h6
      refine ⟨v', w5', .app _ _ _ _ _ _ _ _ _ _ rfl (.lam ..) (evalArgs_append.2 ⟨_, _, _, rfl, h7, h10⟩) h16, h17, h18⟩
  | @run _ b =>
    obtain ⟨g', w1', h1, h2, h3⟩ := ih1 _ _ _ _ _ _ (T.refl _ Γ) hrf hw
    obtain ⟨rfl, rfl⟩ := evalArgs_nil.1 ha
    obtain ⟨rfl, rfl⟩ := eval_lam.1 h1
    obtain ⟨v', w3', h7, h8, h9⟩ := ih3 _ _ _ (.same h2 .nil) h3
    refine ⟨v', w3', ?_, h8, h9⟩
    have h10 := (apply_clo_exact (by rfl)).1 h7
    refine (eval_congr fun x hx => ?_).1 h10
    simp only [List.zip_nil_left, List.reverse_nil, List.nil_append]
    rw [find_capture, if_pos (by simp [Core.fv, hx])]
  | @leave _ ps b hps =>
    obtain ⟨g', w1', h1, h2, h3⟩ := ih1 _ _ _ _ _ _ (T.refl _ Γ) hrf hw
    obtain ⟨rfl, rfl⟩ := evalArgs_nil.1 ha
    obtain ⟨v', w3', h7, h8, h9⟩ := ih3 _ _ _ (.same h2 .nil) h3
    obtain ⟨rfl, rfl⟩ := eval_lam.1 h1
    have : v' = .clo ps b (capture (Core.lam ps b).fv env') ∧ w3' = w1' := by
      cases h7 with
      | clo _ _ _ _ _ _ _ h => cases ps with
        | nil => exact absurd rfl hps
        | cons _ _ => simp at h
      | none => exact ⟨rfl, rfl⟩
      | less _ _ _ _ _ h => simp at h
      | more _ _ _ _ _ _ _ _ _ h => simp at h
    obtain ⟨rfl, rfl⟩ := this
    exact ⟨_, _, h1, h8, h9⟩

/-- one layer of simplification -/
theorem sim (hE : E.BlackBox) (hA : E.Adds) :
    (∀ env w e v w', Eval E env w e v w' → S1 E env w e v w') ∧
    (∀ env w es vs w', EvalArgs E env w es vs w' → S2 E env w es vs w') ∧
    (∀ w f args v w', Apply E w f args v w' → S3 E w f args v w') := by
  apply eval_induct
  case lit =>
    intro env w c Γ δ e' env' g w' hT hr hw
    cases hT
    exact ⟨_, w', .lit .., vrel_val _, hw⟩
  case quote =>
    intro env w c Γ δ e' env' g w' hT hr hw
    cases hT
    exact ⟨_, w', .quote .., vrel_val _, hw⟩
  case loc =>
    intro env w x v hx Γ δ e' env' g w' hT hr hw
    have hm : x ∈ (Core.var x).fv := by simp [Core.fv]
    have h1 := hr.target x hm v hx
    have h2 := hr.value x hm v hx
    cases hT with
    | var _ h => exact ⟨g x, w', .local _ _ _ _ (h1.1 h), h2, hw⟩
    | sub _ s h => exact ⟨g x, w', h1.2 _ h w', h2, hw⟩
  case global =>
    intro env w x v hx hg Γ δ e' env' g w' hT hr hw
    have hm : x ∈ (Core.var x).fv := by simp [Core.fv]
    obtain ⟨h1, h2⟩ := hr.unbound x hm hx
    obtain ⟨v', h3, h4⟩ := hw.globals x v hg
    cases hT with
    | var _ h => exact ⟨v', w', .global _ _ _ _ h2 h3, h4, hw⟩
    | sub _ s h => rw [h1] at h; cases h
  case lam =>
    intro env w ps b Γ δ e' env' g w' hT hr hw
    cases hT with
    | @lam _ _ _ _ b' hf h =>
      refine ⟨_, w', .lam .., .clo env' g Γ (shrink ps δ) h ?_ ?_ ?_ ?_ ?_ ?_, hw⟩
      · intro k s hk
        rw [lookup_shrink] at hk
        split at hk
        · cases hk
        · rename_i hkp
          exact ⟨hkp, hf k s hk hkp⟩
      · intro x hx; rw [find_capture, if_pos hx]
      · intro x hx; rw [find_capture, if_pos hx]; exact hr.scope x hx
      · intro x hx; rw [find_capture, if_pos hx, lookup_shrink]
        intro h1
        have := hr.unbound x hx h1
        exact ⟨by split <;> first | rfl | exact this.1, this.2⟩
      · intro x hx v; rw [find_capture, if_pos hx]; exact hr.value x hx v
      · intro x hx v; rw [find_capture, if_pos hx]
        intro h1
        have := hr.target x hx v h1
        have hxp : x ∉ ps := by simp [Core.fv] at hx; exact hx.2
        unfold Tgt
        rw [lookup_shrink, if_neg hxp]
        exact this
  case thn =>
    intro env w a b c v w1 w2 h1 h2 ih1 ih2 Γ δ e' env' g w' hT hr hw
    cases hT with
    | ite ha hb hc =>
      obtain ⟨u', w1', h3, h4, h5⟩ := ih1 _ _ _ _ _ _ ha (hr.mono fun y hy => by simp [Core.fv, hy]) hw
      obtain ⟨v', w2', h6, h7, h8⟩ := ih2 _ _ _ _ _ _ hb (hr.mono fun y hy => by simp [Core.fv, hy]) h5
      obtain rfl := (vrel_true h4).1 rfl
      exact ⟨v', w2', .then _ _ _ _ _ _ _ _ h3 h6, h7, h8⟩
    | iteT =>
      obtain ⟨_, rfl⟩ := eval_lit.1 h1
      exact ih2 _ _ _ _ _ _ (T.refl _ Γ) (hr.mono fun y hy => by simp [Core.fv, hy]) hw
    | iteF =>
      obtain ⟨h, _⟩ := eval_lit.1 h1
      cases h
  case els =>
    intro env w a b c u v w1 w2 h1 hu h2 ih1 ih2 Γ δ e' env' g w' hT hr hw
    cases hT with
    | ite ha hb hc =>
      obtain ⟨u', w1', h3, h4, h5⟩ := ih1 _ _ _ _ _ _ ha (hr.mono fun y hy => by simp [Core.fv, hy]) hw
      obtain ⟨v', w2', h6, h7, h8⟩ := ih2 _ _ _ _ _ _ hc (hr.mono fun y hy => by simp [Core.fv, hy]) h5
      exact ⟨v', w2', .else _ _ _ _ _ _ _ _ _ h3 (fun e => hu ((vrel_true h4).2 e)) h6, h7, h8⟩
    | iteT =>
      obtain ⟨h, _⟩ := eval_lit.1 h1
      exact absurd h hu
    | iteF =>
      obtain ⟨_, rfl⟩ := eval_lit.1 h1
      exact ih2 _ _ _ _ _ _ (T.refl _ Γ) (hr.mono fun y hy => by simp [Core.fv, hy]) hw
  case seq =>
    intro env w a b u v w1 w2 h1 h2 ih1 ih2 Γ δ e' env' g w' hT hr hw
    cases hT with
    | seq ha hb =>
      obtain ⟨u', w1', h3, h4, h5⟩ := ih1 _ _ _ _ _ _ ha (hr.mono fun y hy => by simp [Core.fv, hy]) hw
      obtain ⟨v', w2', h6, h7, h8⟩ := ih2 _ _ _ _ _ _ hb (hr.mono fun y hy => by simp [Core.fv, hy]) h5
      exact ⟨v', w2', .seq _ _ _ _ _ _ _ _ h3 h6, h7, h8⟩
    | seqS hs =>
      obtain ⟨rfl, _⟩ := static_known hs (scoped_mono hr.scope fun y hy => by simp [Core.fv, hy]) h1
      exact ih2 _ _ _ _ _ _ (T.refl _ Γ) (hr.mono fun y hy => by simp [Core.fv, hy]) hw
  case bind =>
    intro env w x e b u v w1 w2 h1 h2 ih1 ih2
    exact sim_bind env w x e b u v w1 w2 h1 ih1 ih2
  case prim =>
    intro env w f args p vs v w1 w2 h1 h2 h3 ih1 ih2
    exact sim_prim hE hA env w f args p vs v w1 w2 h1 h2 h3 ih1 ih2
  case app =>
    intro env w f args g vs v w1 w2 w3 hp h1 h2 h3 ih1 ih2 ih3
    exact sim_app env w f args g vs v w1 w2 w3 hp h1 h2 h3 ih1 ih2 ih3
  case nil =>
    intro env w Γ δ es' env' g w' hT hr hw
    cases hT
    exact ⟨[], w', .nil .., .nil, hw⟩
  case cons =>
    intro env w e es v vs w1 w2 h1 h2 ih1 ih2 Γ δ es' env' g w' hT hr hw
    cases hT with
    | cons ha hb =>
      obtain ⟨u', w1', h3, h4, h5⟩ := ih1 _ _ _ _ _ _ ha (hr.mono fun y hy => by simp [Core.fvs, hy]) hw
      obtain ⟨v', w2', h6, h7, h8⟩ := ih2 _ _ _ _ _ _ hb (hr.mono fun y hy => by simp [Core.fvs, hy]) h5
      exact ⟨_, w2', .cons _ _ _ _ _ _ _ _ h3 h6, .cons h4 h7, h8⟩
  case clo =>
    intro w ps b env args v w1 hn h ih
    exact sim_clo w ps b env args v w1 hn ih
  case aprim =>
    intro w p args v w1 hn h f' args' w' hA hw
    cases hA with
    | same h1 h2 =>
      cases h1
      obtain ⟨v', w1', h3, h4, h5⟩ := prim_sim hE hn h2 hw v w1 h
      exact ⟨v', w1', .prim _ _ _ _ _ (by rw [hn, vrels_length h2]) h3, h4, h5⟩
  case native =>
    intro w id n args v w1 hn h f' args' w' hA hw
    cases hA with
    | same h1 h2 =>
      cases h1
      obtain ⟨v', w1', h3, h4, h5⟩ := hE.native _ vrel_likeness id args args' w w' v w1 (vrels_each h2) hw h
      exact ⟨v', w1', .native _ _ _ _ _ _ (by rw [← vrels_length h2, hn]) h3, h4, h5⟩
  case none =>
    intro w f n ha hn f' args' w' hA hw
    generalize hg : ([] : List Val) = args at hA
    cases hA with
    | same h1 h2 =>
      subst hg
      cases h2
      exact ⟨f', w', .none _ _ n (by rw [← vrel_arity h1, ha]) hn, h1, hw⟩
    | pulled => simp at hg
  case less =>
    intro w f n args ha hn hl f' args' w' hA hw
    cases hA with
    | same h1 h2 =>
      have := vrels_length h2
      exact ⟨_, w', .less _ _ n _ (by rw [← vrel_arity h1, ha]) (by omega) (by omega), .pap h1 h2, hw⟩
    | pulled =>
      simp [Val.arity] at ha
      simp at hl
      omega
  case more =>
    intro w f n args g v w1 w2 ha hn _ _ ih1 ih2
    exact sim_more w f n args g v w1 w2 ha hn ih1 ih2
  case pap =>
    intro w f got args v w1 hne h ih f' args' w' hA hw
    cases hA with
    | same h1 h2 =>
      cases h1 with
      | pap h3 h4 =>
        obtain ⟨v', w1', h5, h6, h7⟩ := ih _ _ _ (.same h3 (vrels_append h4 h2)) hw
        exact ⟨v', w1', .pap _ _ _ _ _ _ (fun e => hne (by
          have := vrels_length h2; rw [e] at this; simpa using this)) h5, h6, h7⟩
  case papNone =>
    intro w f got f' args' w' hA hw
    generalize hg : ([] : List Val) = args at hA
    cases hA with
    | same h1 h2 =>
      subst hg
      cases h2
      cases h1 with
      | pap h3 h4 => exact ⟨_, w', .papNone .., .pap h3 h4, hw⟩

end Cora.Peval
