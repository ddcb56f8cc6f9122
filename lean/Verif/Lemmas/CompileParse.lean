import Verif.Lemmas.CompileConv
import Verif.Props.Compile
/-
`parse` and `closure-convert` preserve meaning.
-/
open Spec.Lang
namespace Cora.Compile
variable {W : Type}

mutual
/-- `let` binds no captured variable -/
def Exp1.letsOk (fvs : List Sym) : Exp1 → Prop
  | .const _ => True
  | .global _ => True
  | .loc _ => True
  | .lam ps b => b.letsOk (Exp1.lam ps b).free
  | .ite a b c => a.letsOk fvs ∧ b.letsOk fvs ∧ c.letsOk fvs
  | .seq a b => a.letsOk fvs ∧ b.letsOk fvs
  | .bind x e b => x ∉ fvs ∧ e.letsOk fvs ∧ b.letsOk fvs
  | .prim _ args => Exp1.letssOk fvs args
  | .app f args => f.letsOk fvs ∧ Exp1.letssOk fvs args
def Exp1.letssOk (fvs : List Sym) : List Exp1 → Prop
  | [] => True
  | e :: es => e.letsOk fvs ∧ Exp1.letssOk fvs es
end

/-- values of the language and of programs after closure conversion: data are equal; the code of a function is the
compiled text, and it has captured the values of its free variables; a partial application may be nested -/
inductive Conv : Val → CVal Code2 → Prop where
  | int (n) : Conv (.int n) (.int n)
  | bool (b) : Conv (.bool b) (.bool b)
  | nil : Conv .nil .nil
  | str (s) : Conv (.str s) (.str s)
  | sym (x) : Conv (.sym x) (.sym x)
  | cons {a d a' d'} : Conv a a' → Conv d d' → Conv (.cons a d) (.cons a' d')
  | prim (p) : Conv (.prim p) (.prim p)
  | native (id n) : Conv (.native id n) (.native id n)
  | clo {ps : List Sym} {b : Core} {env : Env} {scope : List Sym} {k k' : Nat} {b1 : Exp1} {caps : List (CVal Code2)} :
      parse (ps ++ scope) b k = some (b1, k') → Fits k (ps ++ scope) b → b.full → b1.letsOk (Exp1.lam ps b1).free →
      (∀ x ∈ (Core.lam ps b).fv, x ∈ scope ↔ (find x env).isSome = true) →
      caps.length = (Exp1.lam ps b1).free.length →
      (∀ (i : Nat) x v u, (Exp1.lam ps b1).free[i]? = some x → find x env = some v → caps[i]? = some u → Conv v u) →
      Conv (.clo ps b env) (.clo ps.length (ps, conv (Exp1.lam ps b1).free b1) caps)
  | pap {f f' n got got'} : Conv f f' → f.arity = some n → 0 < got.length → got.length < n → AllRel Conv got got' →
      Conv (.pap f got) (.pap f' got')
  | more {f f' n got args args'} : Conv (.pap f got) f' → f.arity = some n → 0 < args.length →
      got.length + args.length < n → AllRel Conv args args' → Conv (.pap f (got ++ args)) (.pap f' args')

theorem conv_like : Likeness Conv where
  int n u := ⟨fun h => by cases h; rfl, fun h => h ▸ .int n⟩
  bool n u := ⟨fun h => by cases h; rfl, fun h => h ▸ .bool n⟩
  nil u := ⟨fun h => by cases h; rfl, fun h => h ▸ .nil⟩
  str n u := ⟨fun h => by cases h; rfl, fun h => h ▸ .str n⟩
  sym n u := ⟨fun h => by cases h; rfl, fun h => h ▸ .sym n⟩
  cons a d u := ⟨fun h => by cases h with | cons h1 h2 => exact ⟨_, _, rfl, h1, h2⟩,
    fun ⟨a', d', h, h1, h2⟩ => h ▸ .cons h1 h2⟩
  fn v u h hv := by cases h <;> first | rfl | simp [valFn] at hv

/-- the variables of the language and of the compiled program mean the same -/
def EnvRel (fvs : List Sym) (caps : List (CVal Code2)) (env' : CEnv Code2) (scope : List Sym) (env : Env) (xs : List Sym) :
    Prop :=
  ∀ x ∈ xs, (x ∉ scope ∧ find x env = none) ∨
    (x ∈ scope ∧ ∃ v u, find x env = some v ∧ (convVar fvs x).get env' caps = some u ∧ Conv v u)

theorem EnvRel.sub {fvs caps env' scope env xs ys} (h : EnvRel fvs caps env' scope env ys) (hs : ∀ x ∈ xs, x ∈ ys) :
    EnvRel fvs caps env' scope env xs := fun x hx => h x (hs x hx)

theorem get_skip {fvs : List Sym} {caps : List (CVal Code2)} {env' : CEnv Code2} {x y : Sym} {u : CVal Code2} (h : y ≠ x) :
    (convVar fvs x).get ((y, u) :: env') caps = (convVar fvs x).get env' caps := by
  cases hc : convVar fvs x with
  | cap i => rfl
  | loc z =>
    obtain ⟨rfl, _⟩ := convVar_loc.mp hc
    simp [Ref.get, cfind, h]

/-- a variable of the compiled program only -/
theorem EnvRel.gen {fvs caps env' scope env xs} (h : EnvRel fvs caps env' scope env xs) {y : Sym} {u : CVal Code2}
    (hy : y ∉ xs) : EnvRel fvs caps ((y, u) :: env') (y :: scope) env xs := by
  intro x hx
  have hne : y ≠ x := fun h => hy (h ▸ hx)
  rcases h x hx with ⟨h1, h2⟩ | ⟨h1, v, w, h2, h3, h4⟩
  · exact .inl ⟨by simp [h1, Ne.symm hne], h2⟩
  · exact .inr ⟨by simp [h1], v, w, h2, by rw [get_skip hne]; exact h3, h4⟩

/-- a variable bound by `let` -/
theorem EnvRel.bind {fvs caps env' scope env xs ys} (h : EnvRel fvs caps env' scope env ys) {y : Sym} {v : Val}
    {u : CVal Code2} (hv : Conv v u) (hy : y ∉ fvs) (hs : ∀ x ∈ xs, x ≠ y → x ∈ ys) :
    EnvRel fvs caps ((y, u) :: env') (y :: scope) ((y, v) :: env) xs := by
  intro x hx
  by_cases hxy : y = x
  · subst hxy
    refine .inr ⟨by simp, v, u, by simp [find], ?_, hv⟩
    rw [convVar_loc.mpr ⟨rfl, hy⟩]
    simp [Ref.get, cfind]
  · rcases h x (hs x hx (Ne.symm hxy)) with ⟨h1, h2⟩ | ⟨h1, v', w, h2, h3, h4⟩
    · exact .inl ⟨by simp [h1, Ne.symm hxy], by simp [find, hxy, h2]⟩
    · exact .inr ⟨by simp [h1], v', w, by simp [find, hxy, h2], by rw [get_skip hxy]; exact h3, h4⟩

theorem index_of_mem {x : Sym} {l : List Sym} (h : x ∈ l) : ∃ i, index x l = some i ∧ l[i]? = some x := by
  cases hi : index x l with
  | none => exact absurd h (index_none.mp hi)
  | some i => exact ⟨i, rfl, index_lt hi⟩

/-- the captured variables of a closure -/
theorem capture_rel {fvs : List Sym} {caps : List (CVal Code2)} {env' : CEnv Code2} {scope : List Sym} {env : Env} :
    ∀ {xs : List Sym}, (∀ x ∈ xs, ∃ v u, find x env = some v ∧ (convVar fvs x).get env' caps = some u ∧ Conv v u) →
    ∃ us, getRefs env' caps (xs.map (convVar fvs)) = some us ∧ us.length = xs.length ∧
      ∀ (i : Nat) x v u, xs[i]? = some x → find x env = some v → us[i]? = some u → Conv v u
  | [], _ => ⟨[], rfl, rfl, by simp⟩
  | y :: xs, h => by
    obtain ⟨us, h1, h2, h3⟩ := capture_rel (scope := scope) (xs := xs) fun x hx => h x (by simp [hx])
    obtain ⟨v, u, h4, h5, h6⟩ := h y (by simp)
    refine ⟨u :: us, by simp [getRefs, h5, h1], by simp [h2], fun i x v' u' hx hv hu => ?_⟩
    cases i with
    | zero =>
      simp only [List.getElem?_cons_zero, Option.some.injEq] at hx hu
      subst hx hu
      rw [h4] at hv
      cases hv
      exact h6
    | succ i =>
      simp only [List.getElem?_cons_succ] at hx hu
      exact h3 i x v' u' hx hv hu

/-- where a result comes from -/
def ORel (v : Val) (o : Operand) (o' : COperand Code2) : Prop :=
  (∃ u, o' = .now u ∧ Conv v u) ∨ (∃ x, o = .later x ∧ o' = .later x)

/-- the same for several -/
inductive ORels : List Val → List Operand → List (COperand Code2) → Prop where
  | nil : ORels [] [] []
  | cons {v vs o os o' os'} : ORel v o o' → ORels vs os os' → ORels (v :: vs) (o :: os) (o' :: os')

theorem orel_get {w : World W} {w' : CWorld Code2 W} (hw : WorldRel Conv w w') {v o o'} (h : ORel v o o')
    (hg : o.get w = some v) : ∃ u, o'.get w' = some u ∧ Conv v u := by
  rcases h with ⟨u, rfl, h⟩ | ⟨x, rfl, rfl⟩
  · exact ⟨u, rfl, h⟩
  · have := hw.globals x
    simp only [Operand.get] at hg
    rw [hg] at this
    simp only [COperand.get]
    generalize w'.globals x = d at this
    cases this with
    | some h => exact ⟨_, rfl, h⟩

theorem settle_cons {w : World W} {o : Operand} {os : List Operand} {v : Val} {vs : List Val}
    (h : settle w (o :: os) = some (v :: vs)) : o.get w = some v ∧ settle w os = some vs := by
  simp only [settle] at h
  split at h
  · rename_i h1 h2
    simp only [Option.some.injEq, List.cons.injEq] at h
    rw [h1, h2, h.1, h.2]
    exact ⟨rfl, rfl⟩
  · simp at h

theorem orels_settle {w : World W} {w' : CWorld Code2 W} (hw : WorldRel Conv w w') {vs os os'} (h : ORels vs os os')
    (hg : settle w os = some vs) : ∃ us, csettle w' os' = some us ∧ AllRel Conv vs us := by
  induction h with
  | nil => exact ⟨[], rfl, .nil⟩
  | cons h1 _ ih =>
    obtain ⟨h2, h3⟩ := settle_cons hg
    obtain ⟨us, h4, h5⟩ := ih h3
    obtain ⟨u, h6, h7⟩ := orel_get hw h1 h2
    exact ⟨u :: us, by simp [csettle, h6, h4], .cons h7 h5⟩

/-! ### functions -/

theorem conv_arity {f : Val} {u : CVal Code2} {n : Nat} (h : Conv f u) (ha : f.arity = some n) : u.arity = some n := by
  cases h <;> simp_all [Val.arity, CVal.arity]

/-- `u` is the function `f` that has already got the arguments `pre` -/
def Pend (f : Val) (pre : List Val) (u : CVal Code2) : Prop :=
  (pre = [] ∧ Conv f u) ∨ (pre ≠ [] ∧ Conv (.pap f pre) u)

theorem pap_arity : ∀ {u : CVal Code2} {f : Val} {got : List Val}, Conv (.pap f got) u →
    ∃ n, f.arity = some n ∧ 0 < got.length ∧ got.length < n ∧ u.arity = some (n - got.length)
  | .pap f' args', f, got, h => by
    generalize hv : Val.pap f got = v at h
    cases h with
    | @pap g _ n got _ h1 h2 h3 h4 h5 =>
      cases hv
      refine ⟨n, h2, h3, h4, ?_⟩
      simp [CVal.arity, conv_arity h1 h2, allRel_length h5]
    | @more g _ n got args _ h1 h2 h3 h4 h5 =>
      cases hv
      obtain ⟨m, h6, h7, h8, h9⟩ := pap_arity h1
      rw [h6] at h2
      cases h2
      refine ⟨_, h6, by simp; omega, by simpa using h4, ?_⟩
      simp [CVal.arity, h9, ← allRel_length h5]
      omega
  | .int _, _, _, h => by cases h
  | .bool _, _, _, h => by cases h
  | .nil, _, _, h => by cases h
  | .str _, _, _, h => by cases h
  | .sym _, _, _, h => by cases h
  | .cons _ _, _, _, h => by cases h
  | .clo _ _ _, _, _, h => by cases h
  | .prim _, _, _, h => by cases h
  | .native _ _, _, _, h => by cases h

/-- exact calls of partial applications are exact calls of the function -/
theorem pap_exact {O : Outside W} : ∀ {u : CVal Code2} {f : Val} {got : List Val}, Conv (.pap f got) u →
    ∃ f0 got', Conv f f0 ∧ AllRel Conv got got' ∧ ∀ enter args (w : CWorld Code2 W),
      exact O enter u args w = exact O enter f0 (got' ++ args) w
  | .pap f' args', f, got, h => by
    generalize hv : Val.pap f got = v at h
    cases h with
    | @pap g _ n got _ h1 h2 h3 h4 h5 =>
      cases hv
      exact ⟨f', args', h1, h5, fun enter args w => by simp [exact]⟩
    | @more g _ n got args _ h1 h2 h3 h4 h5 =>
      cases hv
      obtain ⟨f0, got', h6, h7, h8⟩ := pap_exact (O := O) h1
      exact ⟨f0, got' ++ args', h6, allRel_append h7 h5, fun enter args w => by simp [exact, h8]⟩
  | .int _, _, _, h => by cases h
  | .bool _, _, _, h => by cases h
  | .nil, _, _, h => by cases h
  | .str _, _, _, h => by cases h
  | .sym _, _, _, h => by cases h
  | .cons _ _, _, _, h => by cases h
  | .clo _ _ _, _, _, h => by cases h
  | .prim _, _, _, h => by cases h
  | .native _ _, _, _, h => by cases h

theorem pend_fn (O : Outside W) {f : Val} {pre : List Val} {u : CVal Code2} (h : Pend f pre u) {n : Nat}
    (ha : f.arity = some n) : u.arity = some (n - pre.length) ∧ (pre ≠ [] → pre.length < n) ∧
    ∃ f0 pre', Conv f f0 ∧ AllRel Conv pre pre' ∧ ∀ enter args (w : CWorld Code2 W),
      exact O enter u args w = exact O enter f0 (pre' ++ args) w := by
  rcases h with ⟨rfl, h⟩ | ⟨hne, h⟩
  · exact ⟨by simpa using conv_arity h ha, by simp, u, [], h, .nil, fun _ _ _ => rfl⟩
  · obtain ⟨m, h1, h2, h3, h4⟩ := pap_arity h
    rw [ha] at h1
    cases h1
    exact ⟨h4, fun _ => h3, pap_exact h⟩

/-- a call with exactly the arguments -/
theorem apply_exact {B : Type} {O : Outside W} {run : Call B W → B → List (CVal B) → List (CVal B) → CWorld B W → Option (CVal B × CWorld B W)}
    {over : Bool} {n : Nat} {u : CVal B} {args : List (CVal B)} {w : CWorld B W} (h : u.arity = some args.length) :
    applyX over O run (n + 1) u args w = exact O (run (applyX over O run n)) u args w := by
  rw [applyX, h]
  simp

/-! ### the induction -/

section
variable (over : Bool) (E : Ext W) (O : Outside W)

/-- what is to be shown of an expression -/
def PE (env : Env) (w : World W) (e : Core) (v : Val) (o : Operand) (w1 : World W) : Prop :=
  o.get w1 = some v ∧ ∀ scope k k' e1 fvs caps env' w', parse scope e k = some (e1, k') → Fits k scope e → e.full →
    e1.letsOk fvs → EnvRel fvs caps env' scope env e.fv → WorldRel Conv w w' →
    ∃ o' w1', ORel v o o' ∧ WorldRel Conv w1 w1' ∧
      ∃ n0, ∀ n, n0 ≤ n → evalE O (applyX over O (run2 O) n) caps (conv fvs e1) env' w' = some (o', w1')

/-- of several -/
def PA (env : Env) (w : World W) (es : List Core) (vs : List Val) (os : List Operand) (w1 : World W) : Prop :=
  ∀ scope k k' es1 fvs caps env' w', parseList scope es k = some (es1, k') → FitsAll k scope es → Core.fulls es →
    Exp1.letssOk fvs es1 → EnvRel fvs caps env' scope env (Core.fvs es) → WorldRel Conv w w' →
    ∃ os' w1', ORels vs os os' ∧ WorldRel Conv w1 w1' ∧
      ∃ n0, ∀ n, n0 ≤ n → evalOs O (applyX over O (run2 O) n) caps (convs fvs es1) env' w' = some (os', w1')

/-- of a call -/
def PP (w : World W) (f : Val) (args : List Val) (v : Val) (w1 : World W) : Prop :=
  ∀ u pre post post' w', Pend f pre u → args = pre ++ post → AllRel Conv post post' → (pre ≠ [] → post ≠ []) →
    WorldRel Conv w w' →
    ∃ v' w1', Conv v v' ∧ WorldRel Conv w1 w1' ∧
      ∃ n0, ∀ n, n0 ≤ n → applyX over O (run2 O) n u post' w' = some (v', w1')

variable {over E O}

theorem pe_var_local {env : Env} {w : World W} {x : Sym} {v : Val} (h : find x env = some v) :
    PE over O env w (.var x) v (.now v) w := by
  refine ⟨rfl, fun scope k k' e1 fvs caps env' w' hp hf hfull hl he hw => ?_⟩
  rcases he x (by simp [Core.fv]) with ⟨_, h1⟩ | ⟨h1, v', u, h2, h3, h4⟩
  · rw [h] at h1; simp at h1
  · rw [h] at h2
    cases h2
    simp only [parse, h1, if_true, Option.some.injEq, Prod.mk.injEq] at hp
    refine ⟨.now u, w', .inl ⟨u, rfl, h4⟩, hw, 0, fun n _ => ?_⟩
    rw [← hp.1]
    simp [conv, evalE, h3]

theorem pe_var_global {env : Env} {w : World W} {x : Sym} {v : Val} (h : find x env = none) (hg : w.globals x = some v) :
    PE over O env w (.var x) v (.later x) w := by
  refine ⟨hg, fun scope k k' e1 fvs caps env' w' hp hf hfull hl he hw => ?_⟩
  rcases he x (by simp [Core.fv]) with ⟨h1, _⟩ | ⟨h1, v', u, h2, h3, h4⟩
  · simp only [parse, h1, if_false, Option.some.injEq, Prod.mk.injEq] at hp
    refine ⟨.later x, w', .inr ⟨x, rfl, rfl⟩, hw, 0, fun n _ => ?_⟩
    rw [← hp.1]
    simp [conv, evalE]
  · rw [h] at h2; simp at h2

/-- making a closure -/
theorem closure_rel {env : Env} {scope fvs ps : List Sym} {k k' : Nat} {b : Core} {b1 : Exp1} {caps : List (CVal Code2)}
    {env' : CEnv Code2} (hp : parse (ps ++ scope) b k = some (b1, k')) (hf : Fits k (ps ++ scope) b) (hfull : b.full)
    (hl : b1.letsOk (Exp1.lam ps b1).free) (he : EnvRel fvs caps env' scope env (Core.lam ps b).fv) :
    ∃ us, getRefs env' caps ((Exp1.lam ps b1).free.map (convVar fvs)) = some us ∧
      Conv (.clo ps b (capture (Core.lam ps b).fv env)) (.clo ps.length (ps, conv (Exp1.lam ps b1).free b1) us) := by
  have hfree : ∀ x, x ∈ (Exp1.lam ps b1).free → x ∈ (Core.lam ps b).fv ∧ x ∈ scope := by
    intro x hx
    simp only [Exp1.free, mem_diff] at hx
    have := (parse_free b hp hf x).mp hx.1
    refine ⟨by simp [Core.fv, this.1, hx.2], ?_⟩
    have h2 := this.2
    simp only [List.mem_append] at h2
    exact h2.resolve_left hx.2
  obtain ⟨us, h1, h2, h3⟩ := capture_rel (fvs := fvs) (caps := caps) (env' := env') (scope := scope) (env := env)
    (xs := (Exp1.lam ps b1).free) fun x hx => by
      obtain ⟨h4, h5⟩ := hfree x hx
      rcases he x h4 with ⟨h6, _⟩ | ⟨_, h6⟩
      · exact absurd h5 h6
      · exact h6
  refine ⟨us, h1, .clo hp hf hfull hl (fun x hx => ?_) h2 fun i x v u hi hv hu => ?_⟩
  · rw [find_capture, if_pos hx]
    rcases he x hx with ⟨h4, h5⟩ | ⟨h4, v, u, h5, _⟩
    · simp [h4, h5]
    · simp [h4, h5]
  · have hmem := List.mem_of_getElem? hi
    rw [find_capture, if_pos (hfree x hmem).1] at hv
    exact h3 i x v u hi hv hu

theorem pe_lam {env : Env} {w : World W} {ps : List Sym} {b : Core} :
    PE over O env w (.lam ps b) (.clo ps b (capture (Core.lam ps b).fv env)) (.now (.clo ps b (capture (Core.lam ps b).fv env))) w := by
  refine ⟨rfl, fun scope k k' e1 fvs caps env' w' hp hf hfull hl he hw => ?_⟩
  obtain ⟨b1, hb, rfl⟩ := parse_lam hp
  simp only [Core.full] at hfull
  simp only [Exp1.letsOk] at hl
  obtain ⟨us, h1, h2⟩ := closure_rel hb (fits_lam hf) hfull hl he
  refine ⟨_, w', .inl ⟨_, rfl, h2⟩, hw, 0, fun n _ => ?_⟩
  rw [conv]
  simp only [evalE, h1, Option.map_some]

/-- what the branches and the condition of `if` give -/
theorem pe_ite {env : Env} {w w1 w2 : World W} {a b c : Core} {u v : Val} {o r : Operand} {t : Bool}
    (ha : PE over O env w a u o w1) (hu : u = .bool true ↔ t = true) (hb : PE over O env w1 (if t then b else c) v r w2) :
    PE over O env w (.ite a b c) v r w2 := by
  refine ⟨hb.1, fun scope k k' e1 fvs caps env' w' hp hf hfull hl he hw => ?_⟩
  obtain ⟨fa, fb, fc⟩ := fits_ite hf
  simp only [Core.full] at hfull
  have hea : EnvRel fvs caps env' scope env a.fv := he.sub (by simp [Core.fv]; intro x hx; simp [hx])
  have heb : EnvRel fvs caps env' scope env b.fv := he.sub (by simp [Core.fv]; intro x hx; simp [hx])
  have hec : EnvRel fvs caps env' scope env c.fv := he.sub (by simp [Core.fv]; intro x hx; simp [hx])
  rcases parse_ite hp with ⟨_, b1, k1, c1, k2, a1, pb, pc, pa, rfl⟩ | ⟨_, a1, k1, b1, k2, c1, pa, pb, pc, rfl⟩
  · -- the condition is itself an `if`
    have l1 := parse_le b pb
    have l2 := parse_le c pc
    simp only [Exp1.letsOk, Exp1.letssOk, and_true, true_and] at hl
    obtain ⟨hg, ⟨hlb, hlc⟩, hla⟩ := hl
    have fb' : Fits (k + 2) (.gen (k + 1) :: scope) b := Fine.gen fb (by omega) (by omega)
    have fc' : Fits k1 (.gen (k + 1) :: scope) c := Fine.gen fc (by omega) (by omega)
    have fa' : Fits k2 (.gen k :: scope) a := Fine.gen fa (by omega) (by omega)
    have hnew : ∀ {x : Sym} {n : Nat} {e : Core}, Fits k scope e → k ≤ n → x ∈ e.fv → x ≠ .gen n :=
      fun h hn hx => ne_gen h.below hn (fv_syms _ _ hx)
    -- the closure
    have hfree : ∀ x, x ∈ (Exp1.lam [.gen (k + 1)] (.ite (.loc (.gen (k + 1))) b1 c1)).free ↔
        (x ∈ b.fv ∨ x ∈ c.fv) ∧ x ∈ scope := by
      intro x
      have ib := parse_free b pb fb' x
      have ic := parse_free c pc fc' x
      simp only [Exp1.free, mem_diff, mem_union, List.not_mem_nil, false_or, or_false, ib, ic, List.mem_cons]
      constructor
      · rintro ⟨(h | h) | h, hn⟩
        · exact absurd h hn
        · exact ⟨.inl h.1, h.2.resolve_left hn⟩
        · exact ⟨.inr h.1, h.2.resolve_left hn⟩
      · rintro ⟨h | h, hs⟩
        · exact ⟨.inl (.inr ⟨h, .inr hs⟩), hnew fb (by omega) h⟩
        · exact ⟨.inr ⟨h, .inr hs⟩, hnew fc (by omega) h⟩
    generalize hF : (Exp1.lam [.gen (k + 1)] (.ite (.loc (.gen (k + 1))) b1 c1)).free = F at hfree hlb hlc
    have hbound : ∀ x ∈ F, ∃ v u, find x env = some v ∧ (convVar fvs x).get env' caps = some u ∧ Conv v u := by
      intro x hx
      obtain ⟨h1, h2⟩ := (hfree x).mp hx
      have := h1.elim (fun h => heb x h) (fun h => hec x h)
      rcases this with ⟨h3, _⟩ | ⟨_, h3⟩
      · exact absurd h2 h3
      · exact h3
    obtain ⟨us, hus, hlen, hrel⟩ := capture_rel (scope := scope) hbound
    -- the condition
    obtain ⟨o', w1', ho, hw1, n1, hn1⟩ := ha.2 _ _ _ _ fvs caps ((.gen k, .clo 1 ([.gen (k + 1)],
      conv F (.ite (.loc (.gen (k + 1))) b1 c1)) us) :: env') w' pa fa' hfull.1 hla
      (hea.gen fun h => hnew fa (Nat.le_refl k) h rfl) hw
    obtain ⟨cond, hcond, hcu⟩ := orel_get hw1 ho ha.1
    -- the branch
    have hvF : Sym.gen (k + 1) ∉ F := fun h => by
      obtain ⟨h1, h2⟩ := (hfree _).mp h
      exact below_gen hf.belowEnv (by omega) h2
    have henv : ∀ e : Core, Fits k scope e → (∀ x ∈ e.fv, x ∈ b.fv ∨ x ∈ c.fv) → EnvRel fvs caps env' scope env e.fv →
        EnvRel F us [(.gen (k + 1), cond)] (.gen (k + 1) :: scope) env e.fv := by
      intro e hfe hs hee
      refine EnvRel.gen (fun x hx => ?_) fun h => hnew hfe (by omega) h rfl
      rcases hee x hx with ⟨h1, h2⟩ | ⟨h1, v, u, h2, h3, h4⟩
      · exact .inl ⟨h1, h2⟩
      · have hxF := (hfree x).mpr ⟨hs x hx, h1⟩
        obtain ⟨i, hi, hi2⟩ := index_of_mem hxF
        have hlt : i < us.length := by
          rw [hlen]
          exact (List.getElem?_eq_some_iff.mp hi2).1
        refine .inr ⟨h1, v, us[i], h2, ?_, hrel i x v _ hi2 h2 (List.getElem?_eq_getElem hlt)⟩
        simp [convVar, hi, Ref.get, hlt]
    have hbr : ∃ r' w2', ORel v r r' ∧ WorldRel Conv w2 w2' ∧ ∃ n0, ∀ n, n0 ≤ n →
        evalE O (applyX over O (run2 O) n) us (conv F (.ite (.loc (.gen (k + 1))) b1 c1)) [(.gen (k + 1), cond)] w1' = some (r', w2') := by
      cases t with
      | true =>
        obtain ⟨r', w2', h1, h2, n0, h3⟩ := hb.2 _ _ _ _ F us [(.gen (k + 1), cond)] w1' pb fb' hfull.2.1 hlb
          (henv b fb (fun x h => .inl h) heb) hw1
        refine ⟨r', w2', h1, h2, n0, fun n hn => ?_⟩
        have ht : cond.isTrue = true := (like_isTrue conv_like hcu).mpr (hu.mpr rfl)
        rw [conv, conv, convVar_loc.mpr ⟨rfl, hvF⟩]
        simp only [evalE, Ref.get, cfind, if_true, Option.map_some, COperand.get, ht]
        exact h3 n hn
      | false =>
        obtain ⟨r', w2', h1, h2, n0, h3⟩ := hb.2 _ _ _ _ F us [(.gen (k + 1), cond)] w1' pc fc' hfull.2.2 hlc
          (henv c fc (fun x h => .inr h) hec) hw1
        refine ⟨r', w2', h1, h2, n0, fun n hn => ?_⟩
        have ht : ¬ cond.isTrue = true := fun h => by
          have := hu.mp ((like_isTrue conv_like hcu).mp h)
          simp at this
        rw [conv, conv, convVar_loc.mpr ⟨rfl, hvF⟩]
        simp only [evalE, Ref.get, cfind, if_true, Option.map_some, COperand.get]
        rw [if_neg ht]
        exact h3 n hn
    obtain ⟨r', w2', hr, hw2, n2, hn2⟩ := hbr
    obtain ⟨res, hres, hrv⟩ := orel_get hw2 hr hb.1
    refine ⟨.now res, w2', .inl ⟨res, rfl, hrv⟩, hw2, n1 + n2 + 1, fun n hn => ?_⟩
    obtain ⟨n, rfl⟩ : ∃ j, n = j + 1 := ⟨n - 1, by omega⟩
    have e1 := hn1 (n + 1) (by omega)
    have e2 := hn2 n (by omega)
    have hcall : conv fvs (.app (.loc (.gen k)) [a1]) = .app (.ref (.loc (.gen k))) [conv fvs a1] := by
      simp [conv, convs, convVar_loc.mpr ⟨rfl, hg⟩]
    rw [conv, conv, hF, hcall]
    simp only [evalE, hus, Option.map_some, COperand.get]
    simp only [evalE, evalOs, Ref.get, cfind, if_true, Option.map_some, List.length_singleton]
    rw [e1]
    have hset : ∀ f : CVal Code2, csettle w1' [.now f, o'] = some [f, cond] := fun f => by
      simp only [csettle, hcond]
      rfl
    simp only [hset]
    rw [apply_exact (by simp [CVal.arity])]
    simp only [exact, List.length_singleton, if_true, run2]
    simp only [List.zip_cons_cons, List.zip_nil_left, List.reverse_cons, List.reverse_nil, List.nil_append, e2, finish, hres,
      Option.map_some]
  · have l1 := parse_le a pa
    have l2 := parse_le b pb
    simp only [Exp1.letsOk] at hl
    obtain ⟨o', w1', ho, hw1, n1, hn1⟩ := ha.2 _ _ _ _ fvs caps env' w' pa fa hfull.1 hl.1 hea hw
    obtain ⟨cond, hcond, hcu⟩ := orel_get hw1 ho ha.1
    cases t with
    | true =>
      obtain ⟨r', w2', h1, h2, n2, h3⟩ := hb.2 _ _ _ _ fvs caps env' w1' pb (fits_mono fb l1) hfull.2.1 hl.2.1 heb hw1
      refine ⟨r', w2', h1, h2, n1 + n2, fun n hn => ?_⟩
      have ht : cond.isTrue = true := (like_isTrue conv_like hcu).mpr (hu.mpr rfl)
      rw [conv]
      simp only [evalE, hn1 n (by omega), hcond, ht, if_true]
      exact h3 n (by omega)
    | false =>
      obtain ⟨r', w2', h1, h2, n2, h3⟩ := hb.2 _ _ _ _ fvs caps env' w1' pc (fits_mono fc (by omega)) hfull.2.2 hl.2.2 hec hw1
      refine ⟨r', w2', h1, h2, n1 + n2, fun n hn => ?_⟩
      have ht : ¬ cond.isTrue = true := fun h => by
        have := hu.mp ((like_isTrue conv_like hcu).mp h)
        simp at this
      rw [conv]
      simp only [evalE, hn1 n (by omega), hcond]
      rw [if_neg ht]
      exact h3 n (by omega)

theorem pe_seq {env : Env} {w w1 w2 : World W} {a b : Core} {u v : Val} {o r : Operand}
    (ha : PE over O env w a u o w1) (hb : PE over O env w1 b v r w2) : PE over O env w (.seq a b) v r w2 := by
  refine ⟨hb.1, fun scope k k' e1 fvs caps env' w' hp hf hfull hl he hw => ?_⟩
  obtain ⟨fa, fb⟩ := fits_seq hf
  obtain ⟨a1, k1, b1, pa, pb, rfl⟩ := parse_seq hp
  simp only [Core.full] at hfull
  simp only [Exp1.letsOk] at hl
  obtain ⟨o', w1', ho, hw1, n1, hn1⟩ := ha.2 _ _ _ _ fvs caps env' w' pa fa hfull.1 hl.1
    (he.sub (by simp [Core.fv]; intro x hx; simp [hx])) hw
  obtain ⟨u', hu', _⟩ := orel_get hw1 ho ha.1
  obtain ⟨r', w2', h1, h2, n2, h3⟩ := hb.2 _ _ _ _ fvs caps env' w1' pb (fits_mono fb (parse_le a pa)) hfull.2 hl.2
    (he.sub (by simp [Core.fv]; intro x hx; simp [hx])) hw1
  refine ⟨r', w2', h1, h2, n1 + n2, fun n hn => ?_⟩
  rw [conv]
  simp only [evalE, hn1 n (by omega), hu']
  exact h3 n (by omega)

theorem pe_bind {env : Env} {w w1 w2 : World W} {x : Sym} {e b : Core} {u v : Val} {o r : Operand}
    (ha : PE over O env w e u o w1) (hb : PE over O ((x, u) :: env) w1 b v r w2) : PE over O env w (.bind x e b) v r w2 := by
  refine ⟨hb.1, fun scope k k' e1 fvs caps env' w' hp hf hfull hl he hw => ?_⟩
  obtain ⟨fa, fb⟩ := fits_bind hf
  obtain ⟨a1, k1, b1, pa, pb, rfl⟩ := parse_bind hp
  simp only [Core.full] at hfull
  simp only [Exp1.letsOk] at hl
  obtain ⟨o', w1', ho, hw1, n1, hn1⟩ := ha.2 _ _ _ _ fvs caps env' w' pa fa hfull.1 hl.2.1
    (he.sub (by simp [Core.fv]; intro x hx; simp [hx])) hw
  obtain ⟨u', hu', huu⟩ := orel_get hw1 ho ha.1
  obtain ⟨r', w2', h1, h2, n2, h3⟩ := hb.2 _ _ _ _ fvs caps ((x, u') :: env') w1' pb (fits_mono fb (parse_le e pa)) hfull.2 hl.2.2
    (he.bind huu hl.1 (by simp [Core.fv]; intro y hy hne; simp [hy, hne])) hw1
  refine ⟨r', w2', h1, h2, n1 + n2, fun n hn => ?_⟩
  rw [conv]
  simp only [evalE, hn1 n (by omega), hu']
  exact h3 n (by omega)

theorem pa_nil {env : Env} {w : World W} : PA over O env w [] [] [] w := by
  intro scope k k' es1 fvs caps env' w' hp hf hfull hl he hw
  simp only [parseList, Option.some.injEq, Prod.mk.injEq] at hp
  refine ⟨[], w', .nil, hw, 0, fun n _ => ?_⟩
  rw [← hp.1, convs, evalOs]

theorem pa_cons {env : Env} {w w1 w2 : World W} {e : Core} {es : List Core} {v : Val} {vs : List Val} {o : Operand}
    {os : List Operand} (ha : PE over O env w e v o w1) (hb : PA over O env w1 es vs os w2) :
    PA over O env w (e :: es) (v :: vs) (o :: os) w2 := by
  intro scope k k' es1 fvs caps env' w' hp hf hfull hl he hw
  obtain ⟨fa, fb⟩ := fits_cons hf
  obtain ⟨a1, k1, b1, pa, pb, rfl⟩ := parseList_cons hp
  simp only [Core.fulls] at hfull
  simp only [Exp1.letssOk] at hl
  obtain ⟨o', w1', ho, hw1, n1, hn1⟩ := ha.2 _ _ _ _ fvs caps env' w' pa fa hfull.1 hl.1
    (he.sub (by simp [Core.fvs]; intro x hx; simp [hx])) hw
  obtain ⟨r', w2', h1, h2, n2, h3⟩ := hb _ _ _ _ fvs caps env' w1' pb (fitsAll_mono fb (parse_le e pa)) hfull.2 hl.2
    (he.sub (by simp [Core.fvs]; intro x hx; simp [hx])) hw1
  refine ⟨o' :: r', w2', .cons ho h1, h2, n1 + n2, fun n hn => ?_⟩
  rw [convs]
  simp only [evalOs, hn1 n (by omega), h3 n (by omega)]

theorem primOf_some {f : Core} {env : Env} {p : String} (h : f.primOf env = some p) :
    f = .var (.named p) ∧ ∃ n, primArity p = some n := by
  unfold Core.primOf at h
  split at h
  · split at h
    · rename_i h1
      simp only [Option.some.injEq] at h
      subst h
      exact ⟨rfl, Option.isSome_iff_exists.mp h1.2⟩
    · simp at h
  · simp at h

theorem builtin_none {f : Core} {env : Env} {scope : List Sym} (h : f.primOf env = none) (hp : NoPrims scope)
    (he : ∀ x ∈ f.fv, x ∈ scope ∨ find x env = none) : builtin f = none := by
  cases hb : builtin f with
  | none => rfl
  | some pn =>
    obtain ⟨rfl, hp1⟩ := builtin_eq (p := pn.1) (n := pn.2) hb
    rcases he (.named pn.1) (by simp [Core.fv]) with h1 | h1
    · have := hp _ h1
      simp [Sym.isPrim, hp1] at this
    · simp [Core.primOf, h1, hp1] at h

theorem pe_prim {env : Env} {w w1 w2 : World W} {f : Core} {args : List Core} {p : String} {vs : List Val} {os : List Operand}
    {v : Val} (hA : Agree E O) (hf : f.primOf env = some p) (ha : PA over O env w args vs os w1) (hset : settle w1 os = some vs)
    (hvs : vs.length = args.length)
    (hap : XApply over E w1 (.prim p) vs v w2) : PE over O env w (.app f args) v (.now v) w2 := by
  refine ⟨rfl, fun scope k k' e1 fvs caps env' w' hp hfit hfull hl he hw => ?_⟩
  obtain ⟨rfl, m, hm⟩ := primOf_some hf
  simp only [Core.full, fullCall] at hfull
  have hlen := hfull.2.2 m hm
  obtain ⟨ff, fa⟩ := fits_app hfit
  have hb : builtin (.var (.named p)) = some (p, m) := by simp [builtin, hm]
  rcases parse_app hp with ⟨h1, _⟩ | ⟨_, p', n', hb', hcase⟩ | ⟨_, hb', _⟩
  · simp [lamIf] at h1
  · rw [hb] at hb'
    simp only [Option.some.injEq, Prod.mk.injEq] at hb'
    obtain ⟨rfl, rfl⟩ := hb'
    rcases hcase with ⟨_, args1, pa, rfl⟩ | ⟨h2, _⟩
    · simp only [Exp1.letsOk] at hl
      obtain ⟨os', w1', h1, h2, n1, h3⟩ := ha _ _ _ _ fvs caps env' w' pa fa hfull.2.1 hl
        (he.sub (by simp [Core.fv]; intro x hx; simp [hx])) hw
      obtain ⟨us, h4, h5⟩ := orels_settle h2 h1 hset
      have hpr : primApply E p vs w1 = some (v, w2) := by
        clear h1 h2 h3 h4 h5
        cases hap with
        | prim _ _ _ _ _ _ h => exact h
        | none _ _ n g1 g2 =>
          simp only [Val.arity, hm, Option.some.injEq] at g1
          simp only [List.length_nil] at hvs
          omega
        | less _ _ n _ g1 g2 g3 =>
          simp only [Val.arity, hm, Option.some.injEq] at g1
          omega
        | more _ _ n _ _ _ _ _ _ g1 g2 =>
          simp only [Val.arity, hm, Option.some.injEq] at g1
          omega
      have hout := prim_like conv_like hA (p := p) h5 h2
      rw [hpr] at hout
      generalize hc : cprim O p us w1' = r at hout
      cases hout with
      | some h6 h7 =>
        refine ⟨.now _, _, .inl ⟨_, rfl, h6⟩, h7, n1, fun n hn => ?_⟩
        rw [conv]
        simp only [evalE, h3 n hn, h4, hc, Option.map_some]
    · omega
  · rw [hb] at hb'
    simp at hb'

theorem pe_app {env : Env} {w w1 w2 w3 : World W} {f : Core} {args : List Core} {g : Val} {o : Operand} {vs : List Val}
    {os : List Operand} {v : Val} (hf : f.primOf env = none) (hfe : PE over O env w f g o w1) (ha : PA over O env w1 args vs os w2)
    (hset : settle w2 (o :: os) = some (g :: vs)) (hap : PP over O w2 g vs v w3) : PE over O env w (.app f args) v (.now v) w3 := by
  refine ⟨rfl, fun scope k k' e1 fvs caps env' w' hp hfit hfull hl he hw => ?_⟩
  simp only [Core.full] at hfull
  obtain ⟨ff, fa⟩ := fits_app hfit
  have hef : EnvRel fvs caps env' scope env f.fv := he.sub (by simp [Core.fv]; intro x hx; simp [hx])
  have hea : EnvRel fvs caps env' scope env (Core.fvs args) := he.sub (by simp [Core.fv]; intro x hx; simp [hx])
  rcases parse_app hp with ⟨hlam, f1, k1, args1, pf, pa, rfl⟩ | ⟨_, p', n', hb', _⟩ | ⟨_, _, f1, k1, args1, pf, pa, rfl⟩
  · -- ((lambda ...) (if ...))
    have l1 := parse_le f pf
    simp only [Exp1.letsOk, true_and] at hl
    obtain ⟨hg, hlf, hla⟩ := hl
    obtain ⟨o', w1', ho, hw1, n1, hn1⟩ := hfe.2 _ _ _ _ fvs caps env' w' pf (fits_mono ff (by omega)) hfull.1 hlf hef hw
    -- the function is a lambda, so it is there
    have hnow : ∃ gu, o' = .now gu ∧ Conv g gu := by
      rcases ho with h | ⟨x, rfl, rfl⟩
      · exact h
      · unfold lamIf at hlam
        split at hlam
        · obtain ⟨b1, hb, rfl⟩ := parse_lam pf
          have := hn1 n1 (Nat.le_refl _)
          rw [conv] at this
          simp only [evalE, Option.map_eq_some_iff, Prod.mk.injEq] at this
          obtain ⟨_, _, h, _⟩ := this
          simp at h
        · simp at hlam
    obtain ⟨gu, rfl, hgu⟩ := hnow
    obtain ⟨os', w2', h1, h2, n2, h3⟩ := ha _ _ _ _ fvs caps ((.gen k, gu) :: env') w1' pa (Fine.gen fa (by omega) (by omega))
      hfull.2.1 hla (hea.gen fun h => ne_gen fa.below (Nat.le_refl k) (fvs_symss _ _ h) rfl) hw1
    obtain ⟨hs1, hs2⟩ := settle_cons hset
    obtain ⟨us, h4, h5⟩ := orels_settle h2 h1 hs2
    obtain ⟨v', w3', h6, h7, n3, h8⟩ := hap gu [] vs us w2' (.inl ⟨rfl, hgu⟩) rfl h5 (by simp) h2
    refine ⟨.now v', w3', .inl ⟨_, rfl, h6⟩, h7, n1 + n2 + n3, fun n hn => ?_⟩
    rw [conv]
    simp only [evalE, hn1 n (by omega), COperand.get]
    rw [conv, conv, convVar_loc.mpr ⟨rfl, hg⟩]
    simp only [evalE, Ref.get, cfind, if_true, Option.map_some, h3 n (by omega), csettle, COperand.get, h4, h8 n (by omega)]
  · have := builtin_none hf hfit.primsEnv fun x hx => (hef x hx).elim (fun h => .inr h.2) fun h => .inl h.1
    rw [hb'] at this
    simp at this
  · simp only [Exp1.letsOk] at hl
    obtain ⟨o', w1', ho, hw1, n1, hn1⟩ := hfe.2 _ _ _ _ fvs caps env' w' pf ff hfull.1 hl.1 hef hw
    obtain ⟨os', w2', h1, h2, n2, h3⟩ := ha _ _ _ _ fvs caps env' w1' pa (fitsAll_mono fa (parse_le f pf)) hfull.2.1 hl.2 hea hw1
    obtain ⟨us, h4, h5⟩ := orels_settle h2 (.cons ho h1) hset
    cases h5 with
    | cons hg hus =>
      rename_i gu us
      obtain ⟨v', w3', h6, h7, n3, h8⟩ := hap gu [] vs us w2' (.inl ⟨rfl, hg⟩) rfl hus (by simp) h2
      refine ⟨.now v', w3', .inl ⟨_, rfl, h6⟩, h7, n1 + n2 + n3, fun n hn => ?_⟩
      rw [conv]
      simp only [evalE, hn1 n (by omega), h3 n (by omega), h4, h8 n (by omega), Option.map_some]

theorem envRel_args {F : List Sym} {caps : List (CVal Code2)} {b : Core} :
    ∀ (ps : List Sym) {vs us}, AllRel Conv vs us → vs.length = ps.length → (∀ x ∈ F, x ∉ ps) →
    ∀ {env0 : CEnv Code2} {envL : Env} {scope' : List Sym}, 
    (∀ x ∈ b.fv, x ∉ ps → (x ∉ scope' ∧ find x envL = none) ∨
      (x ∈ scope' ∧ ∃ v u, find x envL = some v ∧ (convVar F x).get env0 caps = some u ∧ Conv v u)) →
    EnvRel F caps ((ps.zip us).reverse ++ env0) (ps ++ scope') ((ps.zip vs).reverse ++ envL) b.fv
  | [], vs, us, h, hl, hF, env0, envL, scope', he => by
    cases h
    · simpa [EnvRel] using he
    · simp at hl
  | p :: ps, vs, us, h, hl, hF, env0, envL, scope', he => by
    cases h with
    | nil => simp at hl
    | @cons v u vs us h1 h2 =>
      simp only [List.zip_cons_cons, List.reverse_cons, List.append_assoc, List.singleton_append]
      have := envRel_args (b := b) ps h2 (by simpa using hl) (fun x hx => fun h => hF x hx (by simp [h]))
        (env0 := (p, u) :: env0) (envL := (p, v) :: envL) (scope' := p :: scope') (F := F) (caps := caps) fun x hx hn => by
          by_cases hxp : p = x
          · subst hxp
            refine .inr ⟨by simp, v, u, by simp [find], ?_, h1⟩
            rw [convVar_loc.mpr ⟨rfl, fun h => hF _ h (by simp)⟩]
            simp [Ref.get, cfind]
          · rcases he x hx (by simp [hn, Ne.symm hxp]) with ⟨h3, h4⟩ | ⟨h3, a, c, h4, h5, h6⟩
            · exact .inl ⟨by simp [h3, Ne.symm hxp], by simp [find, hxp, h4]⟩
            · exact .inr ⟨by simp [h3], a, c, by simp [find, hxp, h4], by rw [get_skip hxp]; exact h5, h6⟩
      intro x hx
      rcases this x hx with ⟨h3, h4⟩ | ⟨h3, h4⟩
      · exact .inl ⟨by simpa [and_comm, and_assoc, not_or, and_left_comm] using h3, h4⟩
      · exact .inr ⟨by simp only [List.mem_append, List.mem_cons] at h3 ⊢; grind, h4⟩

theorem pp_clo {w w1 : World W} {ps : List Sym} {b : Core} {env : Env} {args : List Val} {v : Val} {o : Operand}
    (hl : args.length = ps.length) (hb : PE over O ((ps.zip args).reverse ++ env) w b v o w1) :
    PP over O w (.clo ps b env) args v w1 := by
  intro u pre post post' w' hpend hargs hpost hne hw
  obtain ⟨har, hlt, f0, pre', hf0, hpre, hex⟩ := pend_fn O hpend (n := ps.length) rfl
  have hall : AllRel Conv args (pre' ++ post') := by rw [hargs]; exact allRel_append hpre hpost
  cases hf0 with
  | @clo _ _ _ scope k k' b1 caps hp hfit hfull hlets hsc hcl hcaps =>
    have hfree : ∀ x, x ∈ (Exp1.lam ps b1).free ↔ x ∉ ps ∧ x ∈ b.fv ∧ x ∈ scope := by
      intro x
      have := parse_free b hp hfit x
      simp only [Exp1.free, mem_diff, this, List.mem_append]
      grind
    obtain ⟨o', w1', ho, hw1, n0, hn0⟩ := hb.2 (ps ++ scope) k k' b1 (Exp1.lam ps b1).free caps
      (ps.zip (pre' ++ post')).reverse w' hp hfit hfull hlets (by
        have := envRel_args (F := (Exp1.lam ps b1).free) (caps := caps) (b := b) ps hall hl
          (fun x hx => ((hfree x).mp hx).1) (env0 := []) (envL := env) (scope' := scope) fun x hx hn => by
            have hfv : x ∈ (Core.lam ps b).fv := by simp [Core.fv, hx, hn]
            have h1 := hsc x hfv
            cases hfx : find x env with
            | none =>
              rw [hfx] at h1
              exact .inl ⟨by simpa using h1, rfl⟩
            | some v =>
              rw [hfx] at h1
              have hs : x ∈ scope := by simpa using h1
              obtain ⟨i, hi, hi2⟩ := index_of_mem ((hfree x).mpr ⟨hn, hx, hs⟩)
              have hlt : i < caps.length := by
                rw [hcl]
                exact (List.getElem?_eq_some_iff.mp hi2).1
              refine .inr ⟨hs, v, caps[i], rfl, ?_, hcaps i x v _ hi2 hfx (List.getElem?_eq_getElem hlt)⟩
              simp [convVar, hi, Ref.get, hlt]
        simpa using this) hw
    obtain ⟨v', hv', hvv⟩ := orel_get hw1 ho hb.1
    refine ⟨v', w1', hvv, hw1, n0 + 1, fun n hn => ?_⟩
    obtain ⟨n, rfl⟩ : ∃ j, n = j + 1 := ⟨n - 1, by omega⟩
    have hlen := allRel_length hall
    have hlen2 := allRel_length hpost
    have hlen3 : args.length = pre.length + post.length := by rw [hargs]; simp
    rw [apply_exact (by rw [har]; congr 1; omega), hex]
    simp only [exact]
    rw [if_pos (by omega)]
    simp only [run2, hn0 n (by omega), finish, hv', Option.map_some]

theorem pp_prim {w w1 : World W} {p : String} {args : List Val} {v : Val} (hA : Agree E O)
    (hl : primArity p = some args.length) (h : primApply E p args w = some (v, w1)) : PP over O w (.prim p) args v w1 := by
  intro u pre post post' w' hpend hargs hpost hne hw
  obtain ⟨har, hlt, f0, pre', hf0, hpre, hex⟩ := pend_fn O hpend (n := args.length) hl
  have hall : AllRel Conv args (pre' ++ post') := by rw [hargs]; exact allRel_append hpre hpost
  cases hf0
  have hout := prim_like conv_like hA (p := p) hall hw
  rw [h] at hout
  generalize hc : cprim O p (pre' ++ post') w' = r at hout
  cases hout with
  | some h6 h7 =>
    refine ⟨_, _, h6, h7, 1, fun n hn => ?_⟩
    obtain ⟨n, rfl⟩ : ∃ j, n = j + 1 := ⟨n - 1, by omega⟩
    have hlen := allRel_length hall
    have hlen2 := allRel_length hpost
    have hlen3 : args.length = pre.length + post.length := by rw [hargs]; simp
    rw [apply_exact (by rw [har]; congr 1; omega), hex]
    simp only [exact]
    rw [if_pos (by rw [hl, hlen]), hc]

theorem pp_native {w w1 : World W} {id n : Nat} {args : List Val} {v : Val} (hA : Agree E O)
    (hl : args.length = n) (h : E.native id args w = some (v, w1)) : PP over O w (.native id n) args v w1 := by
  intro u pre post post' w' hpend hargs hpost hne hw
  obtain ⟨har, hlt, f0, pre', hf0, hpre, hex⟩ := pend_fn O hpend (n := n) rfl
  have hall : AllRel Conv args (pre' ++ post') := by rw [hargs]; exact allRel_append hpre hpost
  cases hf0
  have hout := hA.native Conv conv_like id _ _ _ _ hall hw
  rw [h] at hout
  generalize hc : O.native id (pre' ++ post') w' = r at hout
  cases hout with
  | some h6 h7 =>
    refine ⟨_, _, h6, h7, 1, fun m hn => ?_⟩
    obtain ⟨m, rfl⟩ : ∃ j, m = j + 1 := ⟨m - 1, by omega⟩
    have hlen := allRel_length hall
    have hlen2 := allRel_length hpost
    have hlen3 : args.length = pre.length + post.length := by rw [hargs]; simp
    rw [apply_exact (by rw [har]; congr 1; omega), hex]
    simp only [exact]
    rw [if_pos (by rw [← hlen, hl]), hc]

theorem pp_none {w : World W} {f : Val} {n : Nat} (ha : f.arity = some n) (hn : 0 < n) : PP over O w f [] f w := by
  intro u pre post post' w' hpend hargs hpost hne hw
  have : pre = [] ∧ post = [] := by simpa using hargs.symm
  obtain ⟨rfl, rfl⟩ := this
  cases hpost
  rcases hpend with ⟨_, h⟩ | ⟨h, _⟩
  · refine ⟨u, w', h, hw, 1, fun m hm => ?_⟩
    obtain ⟨m, rfl⟩ : ∃ j, m = j + 1 := ⟨m - 1, by omega⟩
    rw [applyX, conv_arity h ha]
    simp only [List.length_nil]
    rw [if_neg (by omega)]
    simp
  · simp at h

theorem pp_less {w : World W} {f : Val} {n : Nat} {args : List Val} (ha : f.arity = some n) (h0 : 0 < args.length)
    (hlt : args.length < n) : PP over O w f args (.pap f args) w := by
  intro u pre post post' w' hpend hargs hpost hne hw
  obtain ⟨har, _, _⟩ := pend_fn O hpend ha
  have hlen2 := allRel_length hpost
  have hlen3 : args.length = pre.length + post.length := by rw [hargs]; simp
  have hp0 : 0 < post.length := by
    rcases Nat.eq_zero_or_pos post.length with h | h
    · have h1 : post = [] := List.length_eq_zero_iff.mp h
      have h2 : pre ≠ [] := by rintro rfl; simp only [h, List.length_nil] at hlen3; omega
      exact absurd h1 (hne h2)
    · exact h
  refine ⟨.pap u post', w', ?_, hw, 1, fun m hm => ?_⟩
  · rcases hpend with ⟨rfl, h⟩ | ⟨_, h⟩
    · rw [hargs]
      exact .pap h ha (by simpa using hp0) (by simp only [List.length_nil] at hlen3; simp; omega) (by simpa using hpost)
    · rw [hargs]
      exact .more h ha hp0 (by omega) hpost
  · obtain ⟨m, rfl⟩ : ∃ j, m = j + 1 := ⟨m - 1, by omega⟩
    rw [applyX, har]
    simp only
    rw [if_neg (by omega), if_neg (by omega), if_pos (by omega)]

theorem pp_more {w w1 w2 : World W} {f g v : Val} {n : Nat} {args : List Val} (ho : over = true)
    (ha : f.arity = some n) (hlt : n < args.length) (h1 : PP over O w f (args.take n) g w1) (h2 : PP over O w1 g (args.drop n) v w2) : PP over O w f args v w2 := by
  intro u pre post post' w' hpend hargs hpost hne hw
  obtain ⟨har, hpl, _⟩ := pend_fn O hpend ha
  have hlen2 := allRel_length hpost
  have hlen3 : args.length = pre.length + post.length := by rw [hargs]; simp
  have hle : pre.length ≤ n := by
    rcases Classical.em (pre = []) with h | h
    · simp [h]
    · exact Nat.le_of_lt (hpl h)
  obtain ⟨g', w1', hg, hw1, n1, hn1⟩ := h1 u pre (post.take (n - pre.length)) (post'.take (n - pre.length)) w' hpend
    (by rw [hargs, List.take_append, List.take_of_length_le hle]) (allRel_take _ hpost) (fun h => by
      have := hpl h
      intro h3
      have := congrArg List.length h3
      rw [List.length_take, List.length_nil] at this
      omega) hw
  obtain ⟨v', w2', hv, hw2, n2, hn2⟩ := h2 g' [] (args.drop n) (post'.drop (n - pre.length)) w1' (.inl ⟨rfl, hg⟩) rfl (by
    rw [hargs, List.drop_append, List.drop_eq_nil_of_le hle]
    exact allRel_drop _ hpost) (by simp) hw1
  refine ⟨v', w2', hv, hw2, n1 + n2 + 1, fun m hm => ?_⟩
  obtain ⟨m, rfl⟩ : ∃ j, m = j + 1 := ⟨m - 1, by omega⟩
  have e1 := hn1 (m + 1) (by omega)
  rw [apply_exact (by rw [har, List.length_take]; congr 1; omega)] at e1
  rw [applyX, har]
  simp only
  rw [if_neg (by omega), if_neg (by omega), if_neg (by omega), if_pos ho, e1]
  exact hn2 m (by omega)

theorem pp_pap {w w1 : World W} {f v : Val} {got args : List Val} (hne : args ≠ []) (h : PP over O w f (got ++ args) v w1) :
    PP over O w (.pap f got) args v w1 := by
  intro u pre post post' w' hpend hargs hpost hne' hw
  rcases hpend with ⟨rfl, hc⟩ | ⟨_, hc⟩
  · obtain ⟨n, h1, h2, h3, h4⟩ := pap_arity hc
    refine h u got post post' w' (.inr ⟨fun h => by simp [h] at h2, hc⟩) (by rw [hargs]; simp) hpost (fun _ => ?_) hw
    intro h
    exact hne (by rw [hargs, h]; rfl)
  · obtain ⟨n, h1, _⟩ := pap_arity hc
    simp [Val.arity] at h1

theorem pp_papNone {w : World W} {f : Val} {got : List Val} : PP over O w (.pap f got) [] (.pap f got) w := by
  intro u pre post post' w' hpend hargs hpost hne hw
  have : pre = [] ∧ post = [] := by simpa using hargs.symm
  obtain ⟨rfl, rfl⟩ := this
  cases hpost
  rcases hpend with ⟨_, h⟩ | ⟨h, _⟩
  · obtain ⟨n, h1, h2, h3, h4⟩ := pap_arity h
    refine ⟨u, w', h, hw, 1, fun m hm => ?_⟩
    obtain ⟨m, rfl⟩ : ∃ j, m = j + 1 := ⟨m - 1, by omega⟩
    rw [applyX, h4]
    simp only [List.length_nil]
    rw [if_neg (by omega)]
    simp
  · simp at h

theorem sargs_length {env : Env} {w w1 : World W} : ∀ {es : List Core} {vs : List Val} {os : List Operand},
    XArgs over E env w es vs os w1 → vs.length = es.length := by
  intro es
  induction es generalizing w with
  | nil => intro vs os h; cases h; rfl
  | cons e es ih =>
    intro vs os h
    cases h with
    | cons _ _ _ _ _ _ _ _ _ _ h1 h2 => simp [ih h2]

/-- what the language says is what the program after closure conversion computes -/
theorem seval_sim (hA : Agree E O) {env : Env} {w : World W} {e : Core} {v : Val} {o : Operand} {w1 : World W}
    (h : XEval over E env w e v o w1) : PE over O env w e v o w1 := by
  refine XEval.rec (motive_1 := fun env w e v o w1 _ => PE over O env w e v o w1)
    (motive_2 := fun env w es vs os w1 _ => PA over O env w es vs os w1)
    (motive_3 := fun w f args v w1 _ => PP over O w f args v w1)
    ?_ ?_ ?_ ?_ ?_ ?_ ?_ ?_ ?_ ?_ ?_ ?_ ?_ ?_ ?_ ?_ ?_ ?_ ?_ ?_ ?_ h
  · intro env w c
    refine ⟨rfl, fun scope k k' e1 fvs caps env' w' hp hf hfull hl he hw => ?_⟩
    simp only [parse, Option.some.injEq, Prod.mk.injEq] at hp
    refine ⟨.now (cval c.datum), w', .inl ⟨_, rfl, like_val conv_like _⟩, hw, 0, fun n _ => ?_⟩
    rw [← hp.1, conv, evalE]
  · intro env w c
    refine ⟨rfl, fun scope k k' e1 fvs caps env' w' hp hf hfull hl he hw => ?_⟩
    simp only [parse, Option.some.injEq, Prod.mk.injEq] at hp
    refine ⟨.now (cval c), w', .inl ⟨_, rfl, like_val conv_like _⟩, hw, 0, fun n _ => ?_⟩
    rw [← hp.1, conv, evalE]
  · intro env w x v h; exact pe_var_local h
  · intro env w x v h h2; exact pe_var_global h h2
  · intro env w ps b; exact pe_lam
  · intro env w a b c v o r w1 w2 _ _ h1 h2; exact pe_ite (t := true) h1 (by simp) h2
  · intro env w a b c u v o r w1 w2 _ hu _ h1 h2; exact pe_ite (t := false) h1 (by simp [hu]) h2
  · intro env w a b u v o r w1 w2 _ _ h1 h2; exact pe_seq h1 h2
  · intro env w x e b u v o r w1 w2 _ _ h1 h2; exact pe_bind h1 h2
  · intro env w f args p vs os v w1 w2 hf hsa hs hap h1 h2; exact pe_prim hA hf h1 hs (sargs_length hsa) hap
  · intro env w f args g o vs os v w1 w2 w3 hf _ _ hs _ h1 h2 h3; exact pe_app hf h1 h2 hs h3
  · intro env w; exact pa_nil
  · intro env w e es v vs o os w1 w2 _ _ h1 h2; exact pa_cons h1 h2
  · intro w ps b env args v o w1 hl _ h1; exact pp_clo hl h1
  · intro w p args v w1 hl h; exact pp_prim hA hl h
  · intro w id n args v w1 hl h; exact pp_native hA hl h
  · intro w f n h1 h2; exact pp_none h1 h2
  · intro w f n args h1 h2 h3; exact pp_less h1 h2 h3
  · intro w f n args g v w1 w2 h0 h1 h2 _ _ h3 h4; exact pp_more h0 h1 h2 h3 h4
  · intro w f got args v w1 h1 _ h2; exact pp_pap h1 h2
  · intro w f got; exact pp_papNone

end

end Cora.Compile
