import Verif.Model.Peval
import Verif.Spec.Peval
import Verif.Lemmas.Lang
/-
One layer of simplification, and the proof that it keeps the behaviour of programs.
-/
open Spec.Lang
namespace Cora.Peval
variable {W : Type} {E : Ext W}

/-- forms whose value does not depend on the world and whose evaluation does not change it, where `Γ` lists the local variables -/
inductive Static (Γ : List Sym) : Core → Prop where
  | lit (c) : Static Γ (.lit c)
  | quote (d) : Static Γ (.quote d)
  | lam (ps b) : Static Γ (.lam ps b)
  | var (x) : x ∈ Γ → Static Γ (.var x)
  | cons (a d) : .named "cons" ∉ Γ → Static Γ a → Static Γ d → Static Γ (call "cons" [a, d])

/-- a function position may not turn into the name of a primitive -/
def OpOk (f f' : Core) : Prop := (∃ x, f = .var x) ∨ ∀ p, f' = .var (.named p) → primArity p = none

mutual
/-- `T Γ δ e e'`: `e'` is `e` with some simplifications and with the substitution `δ`; `Γ` lists the local variables. -/
inductive T : List Sym → Sub → Core → Core → Prop where
  | lit {Γ δ} (c) : T Γ δ (.lit c) (.lit c)
  | quote {Γ δ} (d) : T Γ δ (.quote d) (.quote d)
  | var {Γ δ} (x) : lookup x δ = none → T Γ δ (.var x) (.var x)
  | sub {Γ δ} (x s) : lookup x δ = some s → T Γ δ (.var x) s
  | lam {Γ δ} {ps b b'} : (∀ k s, lookup k δ = some s → k ∉ ps → ∀ p ∈ ps, p ∉ s.fv) →
      T (ps ++ Γ) (shrink ps δ) b b' → T Γ δ (.lam ps b) (.lam ps b')
  | ite {Γ δ a b c a' b' c'} : T Γ δ a a' → T Γ δ b b' → T Γ δ c c' → T Γ δ (.ite a b c) (.ite a' b' c')
  | seq {Γ δ a b a' b'} : T Γ δ a a' → T Γ δ b b' → T Γ δ (.seq a b) (.seq a' b')
  | bind {Γ δ x e b e' b'} : (∀ k s, lookup k δ = some s → k ≠ x → x ∉ s.fv) → T Γ δ e e' →
      T (x :: Γ) (shrink [x] δ) b b' → T Γ δ (.bind x e b) (.bind x e' b')
  | app {Γ δ f args f' args'} : OpOk f f' → T Γ δ f f' → Ts Γ δ args args' → T Γ δ (.app f args) (.app f' args')
  | letS {Γ x s b b'} : Static Γ s → T (x :: Γ) [(x, s)] b b' → T Γ [] (.bind x s b) b'
  | drop {Γ x s b} : Static Γ s → x ∉ b.fv → T Γ [] (.bind x s b) b
  | toSeq {Γ x e b} : x ∉ b.fv → T Γ [] (.bind x e b) (.seq e b)
  | seqS {Γ s b} : Static Γ s → T Γ [] (.seq s b) b
  | iteT {Γ b c} : T Γ [] (.ite (.lit (.bool true)) b c) b
  | iteF {Γ b c} : T Γ [] (.ite (.lit (.bool false)) b c) c
  | carS {Γ a d} : .named "car" ∉ Γ → .named "cons" ∉ Γ → Static Γ d → T Γ [] (call "car" [call "cons" [a, d]]) a
  | cdrS {Γ a d} : .named "cdr" ∉ Γ → .named "cons" ∉ Γ → Static Γ a → T Γ [] (call "cdr" [call "cons" [a, d]]) d
  | consS {Γ a d} : .named "cons?" ∉ Γ → .named "cons" ∉ Γ → Static Γ a → Static Γ d →
      T Γ [] (call "cons?" [call "cons" [a, d]]) (.lit (.bool true))
  | notS {Γ b} : .named "not" ∉ Γ → T Γ [] (call "not" [.lit (.bool b)]) (.lit (.bool (!b)))
  | plusS {Γ x y} : .named "+" ∉ Γ → T Γ [] (call "+" [.lit (.int x), .lit (.int y)]) (.lit (.int (x + y)))
  | minusS {Γ x y} : .named "-" ∉ Γ → T Γ [] (call "-" [.lit (.int x), .lit (.int y)]) (.lit (.int (x - y)))
  | pull {Γ} {p1 p2 : List Sym} {p b} {a1 a2 : List Core} {c} : Static Γ c → (∀ y ∈ c.fv, y ∉ p1 ++ p2) → p ∉ p2 →
      a1.length = p1.length → p2.length ≤ a2.length →
      T Γ [] (.app (.lam (p1 ++ p :: p2) b) (a1 ++ c :: a2)) (.app (.lam (p1 ++ p2) (.bind p c b)) (a1 ++ a2))
  | run {Γ b} : T Γ [] (.app (.lam [] b) []) b
  | leave {Γ ps b} : ps ≠ [] → T Γ [] (.app (.lam ps b) []) (.lam ps b)
inductive Ts : List Sym → Sub → List Core → List Core → Prop where
  | nil {Γ δ} : Ts Γ δ [] []
  | cons {Γ δ e e' es es'} : T Γ δ e e' → Ts Γ δ es es' → Ts Γ δ (e :: es) (e' :: es')
end

theorem opOk_refl (f : Core) : OpOk f f := by
  cases f with
  | var x => exact .inl ⟨x, rfl⟩
  | _ => exact .inr fun p h => by cases h

theorem shrink_nil (ps : List Sym) : shrink ps [] = [] := rfl

mutual
theorem T.refl : ∀ (e : Core) (Γ : List Sym), T Γ [] e e
  | .lit c, _ => .lit c
  | .quote d, _ => .quote d
  | .var x, _ => .var x rfl
  | .lam ps b, Γ => .lam (fun _ _ h => by cases h) (T.refl b (ps ++ Γ))
  | .ite a b c, Γ => .ite (T.refl a Γ) (T.refl b Γ) (T.refl c Γ)
  | .seq a b, Γ => .seq (T.refl a Γ) (T.refl b Γ)
  | .bind x e b, Γ => .bind (fun _ _ h => by cases h) (T.refl e Γ) (T.refl b (x :: Γ))
  | .app f args, Γ => .app (opOk_refl f) (T.refl f Γ) (Ts.refl args Γ)
theorem Ts.refl : ∀ (es : List Core) (Γ : List Sym), Ts Γ [] es es
  | [], _ => .nil
  | e :: r, Γ => .cons (T.refl e Γ) (Ts.refl r Γ)
end

/-- what the variable `x` of the source is in the simplified program: a variable or the form it was replaced by -/
def Tgt (E : Ext W) (δ : Sub) (env' : Env) (x : Sym) (u : Val) : Prop :=
  (lookup x δ = none → find x env' = some u) ∧ ∀ s, lookup x δ = some s → ∀ w, Eval E env' w s u w

mutual
/-- the same value, with simplified functions. `env'` may have more variables than the function has kept. -/
inductive VRel (E : Ext W) : Val → Val → Prop where
  | int (n) : VRel E (.int n) (.int n)
  | bool (b) : VRel E (.bool b) (.bool b)
  | nil : VRel E .nil .nil
  | str (s) : VRel E (.str s) (.str s)
  | sym (x) : VRel E (.sym x) (.sym x)
  | cons {a d a' d'} : VRel E a a' → VRel E d d' → VRel E (.cons a d) (.cons a' d')
  | prim (p) : VRel E (.prim p) (.prim p)
  | native (id n) : VRel E (.native id n) (.native id n)
  | clo {ps b b' env env1} (env' : Env) (g : Sym → Val) (Γ : List Sym) (δ : Sub) :
      T (ps ++ Γ) δ b b' →
      (∀ k s, lookup k δ = some s → k ∉ ps ∧ ∀ p ∈ ps, p ∉ s.fv) →
      (∀ x ∈ (Core.lam ps b').fv, find x env1 = find x env') →
      (∀ x ∈ (Core.lam ps b).fv, find x env = none ↔ x ∉ Γ) →
      (∀ x ∈ (Core.lam ps b).fv, find x env = none → lookup x δ = none ∧ find x env' = none) →
      (∀ x ∈ (Core.lam ps b).fv, ∀ v, find x env = some v → VRel E v (g x)) →
      (∀ x ∈ (Core.lam ps b).fv, ∀ v, find x env = some v → Tgt E δ env' x (g x)) →
      VRel E (.clo ps b env) (.clo ps b' env1)
  | pap {f f' args args'} : VRel E f f' → VRels E args args' → VRel E (.pap f args) (.pap f' args')
inductive VRels (E : Ext W) : List Val → List Val → Prop where
  | nil : VRels E [] []
  | cons {u v us vs} : VRel E u v → VRels E us vs → VRels E (u :: us) (v :: vs)
end

/-- environments for the variables `xs` -/
structure ERel (E : Ext W) (Γ : List Sym) (δ : Sub) (xs : List Sym) (env env' : Env) (g : Sym → Val) : Prop where
  scope : ∀ x ∈ xs, find x env = none ↔ x ∉ Γ
  unbound : ∀ x ∈ xs, find x env = none → lookup x δ = none ∧ find x env' = none
  value : ∀ x ∈ xs, ∀ v, find x env = some v → VRel E v (g x)
  target : ∀ x ∈ xs, ∀ v, find x env = some v → Tgt E δ env' x (g x)

theorem ERel.mono {Γ δ xs ys env env' g} (h : ERel E Γ δ xs env env' g) (hs : ∀ x ∈ ys, x ∈ xs) :
    ERel E Γ δ ys env env' g :=
  ⟨fun x hx => h.scope x (hs x hx), fun x hx => h.unbound x (hs x hx), fun x hx => h.value x (hs x hx),
    fun x hx => h.target x (hs x hx)⟩

/-! ### values -/

theorem vrel_looks : ∀ {u v : Val}, VRel E u v → Looks u v := fun h =>
  VRel.rec (motive_1 := fun u v _ => Looks u v) (motive_2 := fun u v _ => LooksAll u v) .int .bool .nil .str .sym
    (fun _ _ => .cons) .prim .native (fun _ _ _ _ _ _ _ _ _ _ _ _ => .clo rfl) (fun _ _ => .pap) .nil (fun _ _ => .cons) h

theorem vrel_likeness : Likeness (VRel E) where
  int n u := ⟨fun h => by cases h; rfl, fun h => by subst h; exact .int n⟩
  bool n u := ⟨fun h => by cases h; rfl, fun h => by subst h; exact .bool n⟩
  nil u := ⟨fun h => by cases h; rfl, fun h => by subst h; exact .nil⟩
  str n u := ⟨fun h => by cases h; rfl, fun h => by subst h; exact .str n⟩
  sym n u := ⟨fun h => by cases h; rfl, fun h => by subst h; exact .sym n⟩
  cons a d u := ⟨fun h => by cases h with | cons h1 h2 => exact ⟨_, _, rfl, h1, h2⟩,
    fun ⟨_, _, h, h1, h2⟩ => by subst h; exact .cons h1 h2⟩
  prim n u := ⟨fun h => by cases h; rfl, fun h => by subst h; exact .prim n⟩
  native i n u := ⟨fun h => by cases h; rfl, fun h => by subst h; exact .native i n⟩
  looks _ _ := vrel_looks

theorem vrels_each : ∀ {us vs : List Val}, VRels E us vs → Each (VRel E) us vs
  | [], _, h => by cases h; exact .nil
  | _ :: _, _, h => by cases h with | cons h1 h2 => exact .cons h1 (vrels_each h2)

theorem vrel_val : ∀ d : Datum, VRel E d.val d.val
  | .int n => .int n
  | .bool b => .bool b
  | .nil => .nil
  | .str s => .str s
  | .sym x => .sym x
  | .cons a d => .cons (vrel_val a) (vrel_val d)

theorem vrel_datum : ∀ {u v : Val}, VRel E u v → u.datum = v.datum
  | .cons a d, .cons a' d', h => by
    cases h with
    | cons h1 h2 => simp only [Val.datum, vrel_datum h1, vrel_datum h2]
  | .int _, _, h => by cases h; rfl
  | .bool _, _, h => by cases h; rfl
  | .nil, _, h => by cases h; rfl
  | .str _, _, h => by cases h; rfl
  | .sym _, _, h => by cases h; rfl
  | .clo _ _ _, _, h => by cases h; rfl
  | .prim _, _, h => by cases h; rfl
  | .pap _ _, _, h => by cases h; rfl
  | .native _ _, _, h => by cases h; rfl

theorem vrel_true {u v : Val} (h : VRel E u v) : u = .bool true ↔ v = .bool true := by
  cases h <;> simp

theorem vrels_length : ∀ {us vs : List Val}, VRels E us vs → us.length = vs.length
  | [], _, h => by cases h; rfl
  | _ :: _, _, h => by cases h with | cons _ h => simp [vrels_length h]

theorem vrel_arity {u v : Val} (h : VRel E u v) : u.arity = v.arity := by
  cases h <;> rfl

theorem vrels_take {us vs : List Val} (h : VRels E us vs) (n : Nat) : VRels E (us.take n) (vs.take n) := by
  induction n generalizing us vs with
  | zero => exact .nil
  | succ n ih => cases h with
    | nil => exact .nil
    | cons h1 h2 => exact .cons h1 (ih h2)

theorem vrels_drop {us vs : List Val} (h : VRels E us vs) (n : Nat) : VRels E (us.drop n) (vs.drop n) := by
  induction n generalizing us vs with
  | zero => exact h
  | succ n ih => cases h with
    | nil => exact .nil
    | cons h1 h2 => exact ih h2

theorem vrels_append : ∀ {us vs us' vs' : List Val}, VRels E us vs → VRels E us' vs' → VRels E (us ++ us') (vs ++ vs')
  | [], _, _, _, h, h' => by cases h; exact h'
  | _ :: _, _, _, _, h, h' => by cases h with | cons h1 h2 => exact .cons h1 (vrels_append h2 h')

theorem vrels_split : ∀ {us us' ws : List Val}, VRels E (us ++ us') ws →
    ∃ vs vs', ws = vs ++ vs' ∧ VRels E us vs ∧ VRels E us' vs'
  | [], _, ws, h => ⟨[], ws, rfl, .nil, h⟩
  | _ :: _, _, _, h => by
    cases h with
    | cons h1 h2 =>
      obtain ⟨vs, vs', h3, h4, h5⟩ := vrels_split h2
      exact ⟨_ :: vs, vs', by rw [h3]; rfl, .cons h1 h4, h5⟩

theorem vrels_zip : ∀ {ps : List Sym} {us vs : List Val}, us.length = ps.length → VRels E us vs → ∀ x,
    (x ∉ ps ∧ find x (ps.zip us).reverse = none ∧ find x (ps.zip vs).reverse = none) ∨
    (x ∈ ps ∧ ∃ u v, find x (ps.zip us).reverse = some u ∧ find x (ps.zip vs).reverse = some v ∧ VRel E u v)
  | [], _, _, _, _, x => .inl ⟨by simp, rfl, rfl⟩
  | p :: ps, _, _, hn, h, x => by
    cases h with
    | nil => simp at hn
    | cons h1 h2 =>
      simp only [List.zip_cons_cons, List.reverse_cons, find_append]
      rcases vrels_zip (ps := ps) (by simpa using hn) h2 x with ⟨h3, h4, h5⟩ | ⟨h3, u, v, h4, h5, h6⟩
      · rw [h4, h5]
        by_cases hp : p = x
        · subst hp
          exact .inr ⟨by simp, _, _, by simp [find], by simp [find], h1⟩
        · exact .inl ⟨by simp [Ne.symm hp, h3], by simp [find, hp], by simp [find, hp]⟩
      · rw [h4, h5]
        exact .inr ⟨by simp [h3], u, v, by simp, by simp, h6⟩

mutual
theorem vrel_refl : ∀ v : Val, VRel E v v
  | .int n => .int n
  | .bool b => .bool b
  | .nil => .nil
  | .str s => .str s
  | .sym x => .sym x
  | .cons a d => .cons (vrel_refl a) (vrel_refl d)
  | .prim p => .prim p
  | .native i n => .native i n
  | .pap f args => .pap (vrel_refl f) (vrels_refl args)
  | .clo ps b env => .clo env (fun x => (find x env).getD .nil) (env.map Prod.fst) [] (T.refl _ _)
      (fun _ _ h => by cases h) (fun _ _ => rfl)
      (fun x _ => by
        induction env with
        | nil => simp [find]
        | cons p r ih => 
          obtain ⟨y, u⟩ := p
          simp only [find, List.map_cons, List.mem_cons, not_or]
          by_cases h : y = x
          · simp [h]
          · simp [h, ih, Ne.symm h])
      (fun x _ h => ⟨rfl, h⟩)
      (fun x _ v h => by rw [h]; exact vrel_env env x v h)
      (fun x _ v h => ⟨fun _ => by rw [h]; rfl, fun _ h => by cases h⟩)
theorem vrels_refl : ∀ vs : List Val, VRels E vs vs
  | [] => .nil
  | v :: r => .cons (vrel_refl v) (vrels_refl r)
theorem vrel_env : ∀ (env : Env) (x : Sym) (v : Val), find x env = some v → VRel E v v
  | [], _, _, h => by cases h
  | (y, u) :: r, x, v, h => by
    simp only [find] at h
    split at h
    · cases h; exact vrel_refl u
    · exact vrel_env r x v h
end

end Cora.Peval
