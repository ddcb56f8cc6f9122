import Verif.Lemmas.CompileLive
/-
`tailify`: the program in continuation-passing order computes the same.
-/
open Spec.Lang
namespace Cora.Compile
variable {A B W : Type}

/-! ### names -/

mutual
/-- the variables bound by `let`, not inside functions -/
def Exp.lets : Exp → List Sym
  | .const _ => []
  | .global _ => []
  | .ref _ => []
  | .closure _ _ _ => []
  | .ite a b c => a.lets ++ b.lets ++ c.lets
  | .seq a b => a.lets ++ b.lets
  | .bind x e b => x :: e.lets ++ b.lets
  | .prim _ args => Exp.letss args
  | .app f args => f.lets ++ Exp.letss args
def Exp.letss : List Exp → List Sym
  | [] => []
  | e :: es => e.lets ++ Exp.letss es
end

mutual
/-- all variables that are bound anywhere -/
def Exp.bound : Exp → List Sym
  | .const _ => []
  | .global _ => []
  | .ref _ => []
  | .closure ps body _ => ps ++ body.bound
  | .ite a b c => a.bound ++ b.bound ++ c.bound
  | .seq a b => a.bound ++ b.bound
  | .bind x e b => x :: e.bound ++ b.bound
  | .prim _ args => Exp.bounds args
  | .app f args => f.bound ++ Exp.bounds args
def Exp.bounds : List Exp → List Sym
  | [] => []
  | e :: es => e.bound ++ Exp.bounds es
end

/-- a local variable in scope or one of `n` captured variables -/
def Ref.ok (S : List Sym) (n : Nat) : Ref → Prop
  | .loc x => x ∈ S
  | .cap i => i < n

mutual
/-- with the local variables `S` and `n` captured variables in scope: variables that are read are in scope, `let` does not bind a variable in
scope, and different operands of a call bind different variables -/
def Exp.tidy (S : List Sym) (n : Nat) : Exp → Prop
  | .const _ => True
  | .global _ => True
  | .ref r => r.ok S n
  | .closure ps body frees => body.tidy ps frees.length ∧ ∀ r ∈ frees, r.ok S n
  | .ite a b c => a.tidy S n ∧ b.tidy S n ∧ c.tidy S n
  | .seq a b => a.tidy S n ∧ b.tidy S n
  | .bind x e b => x ∉ S ∧ e.tidy S n ∧ b.tidy (x :: S) n
  | .prim _ args => Exp.tidys S n args
  | .app f args => f.tidy S n ∧ Exp.tidys S n args ∧ ∀ x ∈ f.lets, x ∉ Exp.letss args
def Exp.tidys (S : List Sym) (n : Nat) : List Exp → Prop
  | [] => True
  | e :: es => e.tidy S n ∧ Exp.tidys S n es ∧ ∀ x ∈ e.lets, x ∉ Exp.letss es
end

mutual
theorem lets_bound : ∀ (e : Exp) (x : Sym), x ∈ e.lets → x ∈ e.bound
  | .const _, x => by simp [Exp.lets]
  | .global _, x => by simp [Exp.lets]
  | .ref _, x => by simp [Exp.lets]
  | .closure _ _ _, x => by simp [Exp.lets]
  | .ite a b c, x => by
    simp only [Exp.lets, Exp.bound, List.mem_append]
    rintro ((h | h) | h)
    · exact .inl (.inl (lets_bound a x h))
    · exact .inl (.inr (lets_bound b x h))
    · exact .inr (lets_bound c x h)
  | .seq a b, x => by
    simp only [Exp.lets, Exp.bound, List.mem_append]
    rintro (h | h)
    · exact .inl (lets_bound a x h)
    · exact .inr (lets_bound b x h)
  | .bind y e b, x => by
    simp only [Exp.lets, Exp.bound, List.mem_append, List.mem_cons]
    rintro ((h | h) | h)
    · exact .inl (.inl h)
    · exact .inl (.inr (lets_bound e x h))
    · exact .inr (lets_bound b x h)
  | .prim p args, x => by simpa only [Exp.lets, Exp.bound] using letss_bounds args x
  | .app f args, x => by
    simp only [Exp.lets, Exp.bound, List.mem_append]
    rintro (h | h)
    · exact .inl (lets_bound f x h)
    · exact .inr (letss_bounds args x h)
theorem letss_bounds : ∀ (es : List Exp) (x : Sym), x ∈ Exp.letss es → x ∈ Exp.bounds es
  | [], x => by simp [Exp.letss]
  | e :: es, x => by
    simp only [Exp.letss, Exp.bounds, List.mem_append]
    rintro (h | h)
    · exact .inl (lets_bound e x h)
    · exact .inr (letss_bounds es x h)
end

mutual
/-- `let` binds no variable in scope -/
theorem tidy_lets : ∀ (e : Exp) {S : List Sym} {n : Nat}, e.tidy S n → ∀ x ∈ e.lets, x ∉ S
  | .const _, S, _, _, x, h => by simp [Exp.lets] at h
  | .global _, S, _, _, x, h => by simp [Exp.lets] at h
  | .ref _, S, _, _, x, h => by simp [Exp.lets] at h
  | .closure _ _ _, S, _, _, x, h => by simp [Exp.lets] at h
  | .ite a b c, S, _, ht, x, h => by
    simp only [Exp.tidy] at ht
    simp only [Exp.lets, List.mem_append] at h
    rcases h with (h | h) | h
    · exact tidy_lets a ht.1 x h
    · exact tidy_lets b ht.2.1 x h
    · exact tidy_lets c ht.2.2 x h
  | .seq a b, S, _, ht, x, h => by
    simp only [Exp.tidy] at ht
    simp only [Exp.lets, List.mem_append] at h
    rcases h with h | h
    · exact tidy_lets a ht.1 x h
    · exact tidy_lets b ht.2 x h
  | .bind y e b, S, _, ht, x, h => by
    simp only [Exp.tidy] at ht
    simp only [Exp.lets, List.mem_append, List.mem_cons] at h
    rcases h with (h | h) | h
    · rw [h]; exact ht.1
    · exact tidy_lets e ht.2.1 x h
    · exact fun hS => tidy_lets b ht.2.2 x h (by simp [hS])
  | .prim p args, S, _, ht, x, h => by
    simp only [Exp.tidy] at ht
    exact tidys_lets args ht x (by simpa [Exp.lets] using h)
  | .app f args, S, _, ht, x, h => by
    simp only [Exp.tidy] at ht
    simp only [Exp.lets, List.mem_append] at h
    rcases h with h | h
    · exact tidy_lets f ht.1 x h
    · exact tidys_lets args ht.2.1 x h
theorem tidys_lets : ∀ (es : List Exp) {S : List Sym} {n : Nat}, Exp.tidys S n es → ∀ x ∈ Exp.letss es, x ∉ S
  | [], S, _, _, x, h => by simp [Exp.letss] at h
  | e :: es, S, _, ht, x, h => by
    simp only [Exp.tidys] at ht
    simp only [Exp.letss, List.mem_append] at h
    rcases h with h | h
    · exact tidy_lets e ht.1 x h
    · exact tidys_lets es ht.2.1 x h
end

/-- a symbol generated from `k` on, before `k1` -/
def GenIn (k k1 : Nat) (x : Sym) : Prop := ∃ n, k ≤ n ∧ n < k1 ∧ x = .gen n

theorem genIn_not {k k1 : Nat} {x : Sym} {xs : List Sym} (h : Below k xs) (hx : x ∈ xs) : ¬ GenIn k k1 x := by
  rintro ⟨n, h1, _, rfl⟩
  exact absurd (h n hx) (by omega)

theorem genIn_mono {a b c d : Nat} {x : Sym} (h : GenIn a b x) (h1 : c ≤ a) (h2 : b ≤ d) : GenIn c d x := by
  obtain ⟨n, h3, h4, h5⟩ := h
  exact ⟨n, by omega, by omega, h5⟩

/-! ### the counter only grows -/

/-- `next` does not make the counter smaller -/
def NextLe (g : Smp → Nat → Stm × Nat) : Prop := ∀ x k, k ≤ (g x k).2

mutual
theorem tailify_le : ∀ (e : Exp) (next : Next) (k : Nat), NextLe next.ap → k ≤ (tailify e next k).2
  | .const d, next, k, h => by rw [tailify]; exact h _ _
  | .global x, next, k, h => by rw [tailify]; exact h _ _
  | .ref r, next, k, h => by rw [tailify]; exact h _ _
  | .closure ps body frees, next, k, h => by
    rw [tailify]
    exact Nat.le_trans (tailify_le body .id k fun x k => Nat.le_refl k) (h _ _)
  | .ite a b c, next, k, h => by
    rw [tailify]
    exact tailify_le a _ k fun x k => Nat.le_trans (tailify_le b next k h) (tailify_le c next _ h)
  | .seq a b, next, k, h => by
    rw [tailify]
    refine tailify_le a _ k fun x k => ?_
    simp only [Next.ap]
    split
    · exact tailify_le b next k h
    · exact tailify_le b next k h
  | .bind x e b, next, k, h => by
    rw [tailify]
    exact tailify_le e _ k fun x k => tailify_le b next k h
  | .prim p args, next, k, h => by
    rw [tailify]
    exact tailifyList_le args _ k fun rs k => Nat.le_trans (Nat.le_succ k) (h _ _)
  | .app f args, next, k, h => by
    rw [tailify]
    refine tailify_le f _ k fun x k => tailifyList_le args _ k fun rs k => ?_
    unfold finishCall
    cases next with
    | id => exact Nat.le_refl k
    | fn g => exact Nat.le_trans (Nat.le_succ k) (h (.ref (.loc (.gen k))) (k + 1))
theorem tailifyList_le : ∀ (es : List Exp) (g : List Smp → Nat → Stm × Nat) (k : Nat),
    (∀ xs k, k ≤ (g xs k).2) → k ≤ (tailifyList es g k).2
  | [], g, k, h => by rw [tailifyList]; exact h _ _
  | e :: es, g, k, h => by
    rw [tailifyList]
    exact tailify_le e _ k fun x k => tailifyList_le es _ k fun xs k => h _ k
end

/-! ### operands -/

/-- the local variables an operand reads -/
def Smp.reads : Smp → List Sym
  | .ref r => r.free
  | .closure _ _ frees => frees.flatMap Ref.free
  | _ => []

theorem getRefs_ext {B : Type} {env env' : CEnv B} {caps : List (CVal B)} : ∀ {rs : List Ref},
    (∀ r ∈ rs, ∀ x ∈ r.free, cfind x env' = cfind x env) → getRefs env' caps rs = getRefs env caps rs
  | [], _ => rfl
  | r :: rs, h => by
    unfold getRefs
    rw [getRefs_ext fun q hq => h q (by simp [hq])]
    have : r.get env' caps = r.get env caps := by
      cases r with
      | loc x => exact h (.loc x) (by simp) x (by simp [Ref.free])
      | cap i => rfl
    rw [this]

theorem evalSmp_ext {caps : List (CVal Code3)} {env env' : CEnv Code3} {w : CWorld Code3 W} {e : Smp}
    (h : ∀ x ∈ e.reads, cfind x env' = cfind x env) : evalSmp caps env' w e = evalSmp caps env w e := by
  cases e with
  | const d => rfl
  | global x => rfl
  | ref r =>
    cases r with
    | loc x => exact h x (by simp [Smp.reads, Ref.free])
    | cap i => rfl
  | closure ps body frees =>
    simp only [evalSmp]
    rw [getRefs_ext fun r hr x hx => h x (by simp only [Smp.reads, List.mem_flatMap]; exact ⟨r, hr, hx⟩)]

/-- the code of functions before and after `tailify` -/
def RTail (n m : Nat) (c : Code2) (c' : Code3) : Prop :=
  c.1.length = n ∧ c'.1 = c.1 ∧ ∃ k, c'.2 = (tailify c.2 .id k).1 ∧ c.2.tidy c.1 m ∧ Below k (c.1 ++ c.2.bound)

/-- the operand `e` stands for `o` -/
def OpRel (W : Type) (caps : List (CVal Code3)) (env : CEnv Code3) : COperand Code2 → Smp → Prop
  | .now v, e => ∃ v', VRel RTail v v' ∧ ∀ w : CWorld Code3 W, evalSmp caps env w e = some v'
  | .later x, e => e = .global x

theorem OpRel.ext {caps : List (CVal Code3)} {env env' : CEnv Code3} {o : COperand Code2} {e : Smp}
    (h : OpRel W caps env o e) (he : ∀ x ∈ e.reads, cfind x env' = cfind x env) : OpRel W caps env' o e := by
  cases o with
  | later x => exact h
  | now v =>
    obtain ⟨v', h1, h2⟩ := h
    exact ⟨v', h1, fun w => by rw [evalSmp_ext he, h2]⟩

/-- several operands -/
inductive OpRels (W : Type) (caps : List (CVal Code3)) (env : CEnv Code3) : List (COperand Code2) → List Smp → Prop where
  | nil : OpRels W caps env [] []
  | cons {o os e es} : OpRel W caps env o e → OpRels W caps env os es → OpRels W caps env (o :: os) (e :: es)

/-- the local variables read by operands -/
def Smp.readss : List Smp → List Sym
  | [] => []
  | e :: es => e.reads ++ Smp.readss es

theorem opRel_get {caps : List (CVal Code3)} {env : CEnv Code3} {w : CWorld Code2 W} {w' : CWorld Code3 W}
    (hw : WRel RTail w w') {o : COperand Code2} {e : Smp} (h : OpRel W caps env o e) :
    VOpt RTail (o.get w) (evalSmp caps env w' e) := by
  cases o with
  | now v =>
    obtain ⟨v', hv, he⟩ := h
    rw [he]
    exact .some hv
  | later x =>
    cases h
    exact hw.globals x

theorem settle_rel {caps : List (CVal Code3)} {env : CEnv Code3} {w : CWorld Code2 W} {w' : CWorld Code3 W}
    (hw : WRel RTail w w') {os : List (COperand Code2)} {es : List Smp} (h : OpRels W caps env os es) :
    VsOpt RTail (csettle w os) (evalSmps caps env w' es) := by
  induction h with
  | nil => exact .some .nil
  | @cons o os e es h1 _ ih =>
    have h1 := opRel_get hw h1
    simp only [csettle, evalSmps]
    generalize o.get w = c at h1
    generalize evalSmp caps env w' e = d at h1
    generalize csettle w os = a at ih
    generalize evalSmps caps env w' es = b at ih
    cases h1 with
    | none => exact .none
    | some h1 =>
      cases ih with
      | none => exact .none
      | some h => exact .some (.cons h1 h)

/-- the variables have related values -/
def EnvAll (S : List Sym) (env : CEnv Code2) (env3 : CEnv Code3) : Prop :=
  ∀ x ∈ S, ∃ v v', cfind x env = some v ∧ cfind x env3 = some v' ∧ VRel RTail v v'

/-! ### the main lemma -/

section
variable (O : Outside W) (ap : Call Code2 W) (ap' : Call Code3 W) (caps : List (CVal Code2)) (caps' : List (CVal Code3))

/-- what is known when the operand of an expression has been computed and `next` is about to run -/
structure Reached (S lets : List Sym) (k : Nat) (env3 : CEnv Code3) (w1 : CWorld Code2 W)
    (reads : List Sym) (k1 : Nat) (env3' : CEnv Code3) (w1' : CWorld Code3 W) : Prop where
  le : k ≤ k1
  world : WRel RTail w1 w1'
  ext : ∀ x, x ∉ lets → ¬ GenIn k k1 x → cfind x env3' = cfind x env3
  reads : ∀ x ∈ reads, x ∈ S ∨ x ∈ lets ∨ GenIn k k1 x

/-- running `tailify e (fn g)` computes the operand and goes on with `g` -/
def TailFn (e : Exp) : Prop :=
  ∀ (S : List Sym) (g : Smp → Nat → Stm × Nat) (k : Nat) (env : CEnv Code2) (env3 : CEnv Code3) (w : CWorld Code2 W)
    (w' : CWorld Code3 W), e.tidy S caps.length → Below k (S ++ e.bound) → NextLe g → EnvAll S env env3 → WRel RTail w w' →
    (evalE O ap caps e env w = none ∧ runStm false O ap' caps' (tailify e (.fn g) k).1 env3 w' = none) ∨
    ∃ o w1 ra k1 env3' w1', evalE O ap caps e env w = some (o, w1) ∧
      Reached S e.lets k env3 w1 ra.reads k1 env3' w1' ∧ OpRel W caps' env3' o ra ∧
      runStm false O ap' caps' (tailify e (.fn g) k).1 env3 w' = runStm false O ap' caps' (g ra k1).1 env3' w1'

/-- running `tailify e id` computes the expression -/
def TailId (e : Exp) : Prop :=
  ∀ (S : List Sym) (k : Nat) (env : CEnv Code2) (env3 : CEnv Code3) (w : CWorld Code2 W)
    (w' : CWorld Code3 W), e.tidy S caps.length → Below k (S ++ e.bound) → EnvAll S env env3 → WRel RTail w w' →
    RRel RTail (finish (evalE O ap caps e env w)) (runStm false O ap' caps' (tailify e .id k).1 env3 w')

/-- the same for lists of operands -/
def TailFns (es : List Exp) : Prop :=
  ∀ (S : List Sym) (g : List Smp → Nat → Stm × Nat) (k : Nat) (env : CEnv Code2) (env3 : CEnv Code3) (w : CWorld Code2 W)
    (w' : CWorld Code3 W), Exp.tidys S caps.length es → Below k (S ++ Exp.bounds es) → (∀ xs k, k ≤ (g xs k).2) →
    EnvAll S env env3 → WRel RTail w w' →
    (evalOs O ap caps es env w = none ∧ runStm false O ap' caps' (tailifyList es g k).1 env3 w' = none) ∨
    ∃ os w1 ras k1 env3' w1', evalOs O ap caps es env w = some (os, w1) ∧
      Reached S (Exp.letss es) k env3 w1 (Smp.readss ras) k1 env3' w1' ∧ OpRels W caps' env3' os ras ∧
      runStm false O ap' caps' (tailifyList es g k).1 env3 w' = runStm false O ap' caps' (g ras k1).1 env3' w1'

variable {O ap ap' caps caps'}

theorem Reached.env {S lets bound rs : List Sym} {k k1 : Nat} {env : CEnv Code2} {env3 env3' : CEnv Code3}
    {w1 : CWorld Code2 W} {w1' : CWorld Code3 W} (h : Reached S lets k env3 w1 rs k1 env3' w1')
    (hl : ∀ x ∈ lets, x ∉ S) (hb : Below k (S ++ bound)) (he : EnvAll S env env3) : EnvAll S env env3' := by
  intro x hx
  rw [h.ext x (fun h => hl x h hx) (genIn_not hb (by simp [hx]))]
  exact he x hx

theorem Reached.trans {S S2 la lb lets ra rb : List Sym} {k k1 k2 k3 : Nat} {e1 e2 e2' e3 : CEnv Code3}
    {w1 w2 : CWorld Code2 W} {w1' w2' : CWorld Code3 W} (h1 : Reached S la k e1 w1 ra k1 e2 w1') (hk : k1 ≤ k2)
    (h2 : Reached S2 lb k2 e2' w2 rb k3 e3 w2') (hee : ∀ x, x ∉ lets → cfind x e2' = cfind x e2)
    (ha : ∀ x ∈ la, x ∈ lets) (hb : ∀ x ∈ lb, x ∈ lets)
    (hs : ∀ x ∈ S2, x ∈ S ∨ x ∈ lets) : Reached S lets k e1 w2 rb k3 e3 w2' where
  le := Nat.le_trans h1.le (Nat.le_trans hk h2.le)
  world := h2.world
  ext := fun x hx hg => by
    rw [h2.ext x (fun h => hx (hb x h)) fun h => hg (genIn_mono h (Nat.le_trans h1.le hk) (Nat.le_refl _)), hee x hx,
      h1.ext x (fun h => hx (ha x h)) fun h => hg (genIn_mono h (Nat.le_refl _) (Nat.le_trans hk h2.le))]
  reads := fun x hx => by
    rcases h2.reads x hx with h | h | h
    · rcases hs x h with h | h
      · exact .inl h
      · exact .inr (.inl h)
    · exact .inr (.inl (hb x h))
    · exact .inr (.inr (genIn_mono h (Nat.le_trans h1.le hk) (Nat.le_refl _)))

theorem below_part {k k' : Nat} {S a b : List Sym} (h : Below k (S ++ b)) (hk : k ≤ k') (hs : ∀ x ∈ a, x ∈ b) :
    Below k' (S ++ a) :=
  below_mono (below_sub h fun x hx => by
    rcases List.mem_append.mp hx with h | h
    · exact List.mem_append.mpr (.inl h)
    · exact List.mem_append.mpr (.inr (hs x h))) hk

theorem idLe : NextLe Next.id.ap := fun _ k => Nat.le_refl k

/-- the cases of an operand whose value is needed at once -/
theorem get_cases {env : CEnv Code3} {w : CWorld Code2 W} {w' : CWorld Code3 W}
    (hw : WRel RTail w w') {o : COperand Code2} {e : Smp} (h : OpRel W caps' env o e) :
    (o.get w = none ∧ evalSmp caps' env w' e = none) ∨
    ∃ v v', o.get w = some v ∧ evalSmp caps' env w' e = some v' ∧ VRel RTail v v' := by
  have := opRel_get hw h
  generalize ha : o.get w = a at this
  generalize hb : evalSmp caps' env w' e = b at this
  cases this with
  | none => exact .inl ⟨rfl, rfl⟩
  | some h => exact .inr ⟨_, _, rfl, rfl, h⟩

/-! ### atoms -/

theorem tailFn_const (d : Datum) : TailFn O ap ap' caps caps' (.const d) := by
  intro S g k env env3 w w' ht hbl hg he hw
  exact .inr ⟨_, w, .const d, k, env3, w', rfl, ⟨Nat.le_refl k, hw, fun _ _ _ => rfl, by simp [Smp.reads]⟩,
    ⟨_, vrel_cval d, fun _ => rfl⟩, by rw [tailify]; rfl⟩

theorem tailFn_global (x : Sym) : TailFn O ap ap' caps caps' (.global x) := by
  intro S g k env env3 w w' ht hbl hg he hw
  exact .inr ⟨_, w, .global x, k, env3, w', rfl, ⟨Nat.le_refl k, hw, fun _ _ _ => rfl, by simp [Smp.reads]⟩,
    rfl, by rw [tailify]; rfl⟩

/-- after a local variable `next` is called, even if it has no value; the statement for that case -/
theorem tailId_ret {e : Exp} {ra : Exp → Nat → Smp × Nat} (h : ∀ next k, tailify e next k = next.ap (ra e k).1 (ra e k).2)
    (hfn : TailFn O ap ap' caps caps' e) : TailId O ap ap' caps caps' e := by
  intro S k env env3 w w' ht hbl he hw
  have : (tailify e .id k).1 = (tailify e (.fn fun x k => (.ret x, k)) k).1 := by rw [h, h]; rfl
  rw [this]
  rcases hfn S (fun x k => (.ret x, k)) k env env3 w w' ht hbl (fun _ k => Nat.le_refl k) he hw with
    ⟨h1, h2⟩ | ⟨o, w1, r, k1, env3', w1', h1, h2, h3, h4⟩
  · rw [h1, h2]; exact .none
  · rw [h1, h4]
    simp only [finish, runStm]
    rcases get_cases h2.world h3 with ⟨h5, h6⟩ | ⟨v, v', h5, h6, h7⟩
    · rw [h5, h6]; exact .none
    · rw [h5, h6]; exact .some h7 h2.world

theorem getRef_all {S : List Sym} (hc : VRels RTail caps caps') {env : CEnv Code2} {env3 : CEnv Code3}
    (he : EnvAll S env env3) {r : Ref} (h : r.ok S caps.length) :
    ∃ v v', r.get env caps = some v ∧ r.get env3 caps' = some v' ∧ VRel RTail v v' := by
  cases r with
  | loc x => exact he x h
  | cap i =>
    have h1 := vrels_get hc i
    simp only [Ref.ok] at h
    simp only [Ref.get]
    rw [List.getElem?_eq_getElem h] at h1
    generalize caps'[i]? = d at h1
    rw [List.getElem?_eq_getElem h]
    cases h1 with
    | some h1 => exact ⟨_, _, rfl, rfl, h1⟩

theorem getRefs_all {S : List Sym} (hc : VRels RTail caps caps') {env : CEnv Code2} {env3 : CEnv Code3}
    (he : EnvAll S env env3) : ∀ {rs : List Ref}, (∀ r ∈ rs, r.ok S caps.length) →
    ∃ vs vs', getRefs env caps rs = some vs ∧ getRefs env3 caps' rs = some vs' ∧ VRels RTail vs vs' ∧ vs.length = rs.length
  | [], _ => ⟨[], [], rfl, rfl, .nil, rfl⟩
  | r :: rs, h => by
    obtain ⟨v, v', h1, h2, h3⟩ := getRef_all hc he (h r (by simp))
    obtain ⟨vs, vs', h4, h5, h6, h7⟩ := getRefs_all hc he (rs := rs) fun r hr => h r (by simp [hr])
    exact ⟨v :: vs, v' :: vs', by simp [getRefs, h1, h4], by simp [getRefs, h2, h5], .cons h3 h6, by simp [h7]⟩

theorem tailFn_ref (hc : VRels RTail caps caps') (r : Ref) : TailFn O ap ap' caps caps' (.ref r) := by
  intro S g k env env3 w w' ht hbl hg he hw
  simp only [Exp.tidy] at ht
  obtain ⟨v, v', h1, h2, h3⟩ := getRef_all hc he ht
  refine .inr ⟨.now v, w, .ref r, k, env3, w', by simp [evalE, h1],
    ⟨Nat.le_refl k, hw, fun _ _ _ => rfl, fun x hx => ?_⟩, ⟨v', h3, fun w => ?_⟩, by rw [tailify]; rfl⟩
  · cases r with
    | loc y =>
      simp only [Smp.reads, Ref.free, List.mem_singleton] at hx
      subst hx
      exact .inl ht
    | cap i => simp [Smp.reads, Ref.free] at hx
  · exact h2

theorem tailFn_closure (hc : VRels RTail caps caps') (ps : List Sym) (b : Exp) (rs : List Ref) :
    TailFn O ap ap' caps caps' (.closure ps b rs) := by
  intro S g k env env3 w w' ht hbl hg he hw
  simp only [Exp.tidy] at ht
  obtain ⟨ht, hrs⟩ := ht
  obtain ⟨vs, vs', h1, h2, h3, h4⟩ := getRefs_all hc he hrs
  refine .inr ⟨.now (.clo ps.length (ps, b) vs), w, .closure ps (tailify b .id k).1 rs, (tailify b .id k).2, env3, w',
    by simp [evalE, h1], ⟨tailify_le b .id k idLe, hw, fun _ _ _ => rfl, fun x hx => ?_⟩,
    ⟨.clo ps.length (ps, (tailify b .id k).1) vs', .clo ⟨rfl, rfl, k, rfl, h4 ▸ ht, ?_⟩ h3, fun w => by simp [evalSmp, h2]⟩,
    by rw [tailify]; rfl⟩
  · simp only [Smp.reads, List.mem_flatMap] at hx
    obtain ⟨r, hr, hx⟩ := hx
    have := hrs r hr
    cases r with
    | loc y =>
      simp only [Ref.free, List.mem_singleton] at hx
      subst hx
      exact .inl this
    | cap i => simp [Ref.free] at hx
  · exact below_sub hbl fun x hx => by
      simp only [List.mem_append, Exp.bound] at hx ⊢
      exact .inr hx

/-! ### conditionals, sequences, `let` -/

theorem tailFn_ite {a b c : Exp} (ha : TailFn O ap ap' caps caps' a) (hb : TailFn O ap ap' caps caps' b)
    (hc : TailFn O ap ap' caps caps' c) : TailFn O ap ap' caps caps' (.ite a b c) := by
  intro S g k env env3 w w' ht hbl hg he hw
  simp only [Exp.tidy] at ht
  obtain ⟨hta, htb, htc⟩ := ht
  have hla := tidy_lets a hta
  simp only [Exp.bound] at hbl
  rw [tailify]
  rcases ha S k env env3 w w' hta (below_part hbl (Nat.le_refl k) (by simp +contextual)) (g := fun ra k => (.ite ra
      (tailify b (.fn g) k).1 (tailify c (.fn g) (tailify b (.fn g) k).2).1,
      (tailify c (.fn g) (tailify b (.fn g) k).2).2)) (fun _ k => Nat.le_trans (tailify_le b (.fn g) k hg) (tailify_le c (.fn g) _ hg)) he hw with
    ⟨h1, h2⟩ | ⟨o, w1, r, k1, env3', w1', h1, h2, h3, h4⟩
  · exact .inl ⟨by simp only [evalE, h1], h2⟩
  · simp only [evalE, h1, Exp.lets]
    rcases get_cases h2.world h3 with ⟨h5, h6⟩ | ⟨v, v', h5, h6, h7⟩
    · exact .inl ⟨by rw [h5], h4.trans (by simp only [runStm, h6])⟩
    · simp only [h5]
      have h8 := vrel_isTrue h7
      have hle := tailify_le b (.fn g) k1 hg
      have he' := h2.env hla hbl he
      cases ht : v.isTrue with
      | true =>
        rw [ht] at h8
        rcases hb S g k1 env env3' w1 w1' htb (below_part hbl h2.le (by simp +contextual)) hg he' h2.world with
          ⟨h9, h10⟩ | ⟨o2, w2, r2, k2, env4, w2', h9, h10, h11, h12⟩
        · exact .inl ⟨by simp [h9], h4.trans (by simp only [runStm, h6, ← h8, if_true, h10])⟩
        · refine .inr ⟨o2, w2, r2, k2, env4, w2', by simp [h9], h2.trans (Nat.le_refl _) h10 (fun _ _ => rfl) (by simp +contextual)
            (by simp +contextual) (by simp +contextual), h11, h4.trans ?_⟩
          simp only [runStm, h6, ← h8, if_true, h12]
      | false =>
        rw [ht] at h8
        rcases hc S g (tailify b (.fn g) k1).2 env env3' w1 w1' htc (below_part hbl (Nat.le_trans h2.le hle) (by simp +contextual)) hg he' h2.world with
          ⟨h9, h10⟩ | ⟨o2, w2, r2, k2, env4, w2', h9, h10, h11, h12⟩
        · exact .inl ⟨by simp [h9], h4.trans (by simp only [runStm, h6, ← h8, Bool.false_eq_true, if_false, h10])⟩
        · refine .inr ⟨o2, w2, r2, k2, env4, w2', by simp [h9], h2.trans hle h10 (fun _ _ => rfl) (by simp +contextual)
            (by simp +contextual) (by simp +contextual), h11, h4.trans ?_⟩
          simp only [runStm, h6, ← h8, Bool.false_eq_true, if_false, h12]

theorem tailId_ite {a b c : Exp} (ha : TailFn O ap ap' caps caps' a) (hb : TailId O ap ap' caps caps' b)
    (hc : TailId O ap ap' caps caps' c) : TailId O ap ap' caps caps' (.ite a b c) := by
  intro S k env env3 w w' ht hbl he hw
  simp only [Exp.tidy] at ht
  obtain ⟨hta, htb, htc⟩ := ht
  have hla := tidy_lets a hta
  simp only [Exp.bound] at hbl
  rw [tailify]
  rcases ha S k env env3 w w' hta (below_part hbl (Nat.le_refl k) (by simp +contextual)) (g := fun ra k => (.ite ra
      (tailify b .id k).1 (tailify c .id (tailify b .id k).2).1,
      (tailify c .id (tailify b .id k).2).2)) (fun _ k => Nat.le_trans (tailify_le b .id k idLe) (tailify_le c .id _ idLe)) he hw with
    ⟨h1, h2⟩ | ⟨o, w1, r, k1, env3', w1', h1, h2, h3, h4⟩
  · simp only [evalE, h1]
    refine Eq.subst (motive := fun x => RRel RTail _ x) h2.symm .none
  · simp only [evalE, h1]
    refine Eq.subst (motive := fun x => RRel RTail _ x) h4.symm ?_
    simp only [runStm]
    rcases get_cases h2.world h3 with ⟨h5, h6⟩ | ⟨v, v', h5, h6, h7⟩
    · simp only [h5, h6]; exact .none
    · simp only [h5, h6]
      have hle := tailify_le b .id k1 idLe
      have he' := h2.env hla hbl he
      rw [← vrel_isTrue h7]
      split
      · exact hb S k1 env env3' w1 w1' htb (below_part hbl h2.le (by simp +contextual)) he' h2.world
      · exact hc S (tailify b .id k1).2 env env3' w1 w1' htc (below_part hbl (Nat.le_trans h2.le hle) (by simp +contextual)) he' h2.world

theorem isLoc_get {env : CEnv Code3} {o : COperand Code2} {e : Smp} (h : OpRel W caps' env o e) (hl : e.isLoc = true)
    (w : CWorld Code2 W) : ∃ v, o.get w = some v := by
  cases o with
  | now v => exact ⟨v, rfl⟩
  | later x => cases h; simp [Smp.isLoc] at hl

/-- the next step of a sequence -/
def seqNext (b : Exp) (next : Next) (ra : Smp) (k : Nat) : Stm × Nat :=
  if ra.isLoc then tailify b next k else (.seq ra (tailify b next k).1, (tailify b next k).2)

theorem tailify_seq (a b : Exp) (next : Next) (k : Nat) : tailify (.seq a b) next k = tailify a (.fn (seqNext b next)) k := by
  rw [tailify]; rfl

theorem seqNext_le {b : Exp} {next : Next} (h : NextLe next.ap) : NextLe (seqNext b next) := by
  intro x k
  unfold seqNext
  split <;> exact tailify_le b next k h

theorem run_seqNext {b : Exp} {next : Next} {env : CEnv Code3} {w : CWorld Code2 W} {w' : CWorld Code3 W}
    (hw : WRel RTail w w') {o : COperand Code2} {e : Smp} (h : OpRel W caps' env o e) (k : Nat) :
    (o.get w = none ∧ runStm false O ap' caps' (seqNext b next e k).1 env w' = none) ∨
    ∃ v, o.get w = some v ∧
      runStm false O ap' caps' (seqNext b next e k).1 env w' = runStm false O ap' caps' (tailify b next k).1 env w' := by
  unfold seqNext
  split
  · rename_i hl
    obtain ⟨v, hv⟩ := isLoc_get h hl w
    exact .inr ⟨v, hv, rfl⟩
  · simp only [runStm]
    rcases get_cases hw h with ⟨h5, h6⟩ | ⟨v, v', h5, h6, h7⟩
    · exact .inl ⟨h5, by rw [h6]⟩
    · exact .inr ⟨v, h5, by rw [h6]⟩

theorem tailFn_seq {a b : Exp} (ha : TailFn O ap ap' caps caps' a) (hb : TailFn O ap ap' caps caps' b) :
    TailFn O ap ap' caps caps' (.seq a b) := by
  intro S g k env env3 w w' ht hbl hg he hw
  simp only [Exp.tidy] at ht
  obtain ⟨hta, htb⟩ := ht
  have hla := tidy_lets a hta
  simp only [Exp.bound] at hbl
  rw [tailify_seq]
  rcases ha S _ k env env3 w w' hta (below_part hbl (Nat.le_refl k) (by simp +contextual))
      (seqNext_le (b := b) (next := .fn g) hg) he hw with
    ⟨h1, h2⟩ | ⟨o, w1, r, k1, env3', w1', h1, h2, h3, h4⟩
  · exact .inl ⟨by simp only [evalE, h1], h2⟩
  · simp only [evalE, h1, Exp.lets]
    rcases run_seqNext (O := O) (ap' := ap') (b := b) (next := .fn g) h2.world h3 k1 with ⟨h5, h6⟩ | ⟨v, h5, h6⟩
    · exact .inl ⟨by rw [h5], h4.trans h6⟩
    · simp only [h5]
      rcases hb S g k1 env env3' w1 w1' htb (below_part hbl h2.le (by simp +contextual)) hg (h2.env hla hbl he) h2.world with
        ⟨h9, h10⟩ | ⟨o2, w2, r2, k2, env4, w2', h9, h10, h11, h12⟩
      · exact .inl ⟨h9, h4.trans (h6.trans h10)⟩
      · exact .inr ⟨o2, w2, r2, k2, env4, w2', h9, h2.trans (Nat.le_refl _) h10 (fun _ _ => rfl) (by simp +contextual)
            (by simp +contextual) (by simp +contextual), h11, h4.trans (h6.trans h12)⟩

theorem tailId_seq {a b : Exp} (ha : TailFn O ap ap' caps caps' a) (hb : TailId O ap ap' caps caps' b) :
    TailId O ap ap' caps caps' (.seq a b) := by
  intro S k env env3 w w' ht hbl he hw
  simp only [Exp.tidy] at ht
  obtain ⟨hta, htb⟩ := ht
  have hla := tidy_lets a hta
  simp only [Exp.bound] at hbl
  rw [tailify_seq]
  rcases ha S _ k env env3 w w' hta (below_part hbl (Nat.le_refl k) (by simp +contextual))
      (seqNext_le (b := b) idLe) he hw with
    ⟨h1, h2⟩ | ⟨o, w1, r, k1, env3', w1', h1, h2, h3, h4⟩
  · simp only [evalE, h1, h2]; exact .none
  · simp only [evalE, h1, h4]
    rcases run_seqNext (O := O) (ap' := ap') (b := b) (next := .id) h2.world h3 k1 with ⟨h5, h6⟩ | ⟨v, h5, h6⟩
    · simp only [h5, h6]; exact .none
    · simp only [h5, h6]
      exact hb S k1 env env3' w1 w1' htb (below_part hbl h2.le (by simp +contextual)) (h2.env hla hbl he) h2.world

theorem envAll_cons {S : List Sym} {env : CEnv Code2} {env3 : CEnv Code3} (h : EnvAll S env env3) (x : Sym)
    {v : CVal Code2} {v' : CVal Code3} (hv : VRel RTail v v') : EnvAll (x :: S) ((x, v) :: env) ((x, v') :: env3) := by
  intro y hy
  by_cases hxy : x = y
  · exact ⟨v, v', by simp [cfind, hxy], by simp [cfind, hxy], hv⟩
  · obtain ⟨u, u', h1, h2, h3⟩ := h y (by simpa [Ne.symm hxy] using hy)
    exact ⟨u, u', by simp [cfind, hxy, h1], by simp [cfind, hxy, h2], h3⟩

theorem tailFn_bind {a b : Exp} {x : Sym} (ha : TailFn O ap ap' caps caps' a) (hb : TailFn O ap ap' caps caps' b) :
    TailFn O ap ap' caps caps' (.bind x a b) := by
  intro S g k env env3 w w' ht hbl hg he hw
  simp only [Exp.tidy] at ht
  obtain ⟨hx, hta, htb⟩ := ht
  have hla := tidy_lets a hta
  simp only [Exp.bound] at hbl
  rw [tailify]
  rcases ha S k env env3 w w' hta (below_part hbl (Nat.le_refl k) (by simp +contextual)) (g := fun ra k =>
      (.bind x ra (tailify b (.fn g) k).1, (tailify b (.fn g) k).2)) (fun _ k => tailify_le b (.fn g) k hg) he hw with
    ⟨h1, h2⟩ | ⟨o, w1, r, k1, env3', w1', h1, h2, h3, h4⟩
  · exact .inl ⟨by simp only [evalE, h1], h2⟩
  · simp only [evalE, h1, Exp.lets]
    rcases get_cases h2.world h3 with ⟨h5, h6⟩ | ⟨v, v', h5, h6, h7⟩
    · exact .inl ⟨by rw [h5], h4.trans (by simp only [runStm, h6])⟩
    · simp only [h5]
      rcases hb (x :: S) g k1 _ _ w1 w1' htb (below_mono (below_sub hbl (by simp +contextual; grind)) h2.le) hg
          (envAll_cons (h2.env hla hbl he) x h7) h2.world with
        ⟨h9, h10⟩ | ⟨o2, w2, r2, k2, env4, w2', h9, h10, h11, h12⟩
      · exact .inl ⟨h9, h4.trans (by simp only [runStm, h6, h10])⟩
      · refine .inr ⟨o2, w2, r2, k2, env4, w2', h9, h2.trans (Nat.le_refl _) h10 (fun y hy => ?_) (by simp +contextual)
            (by simp +contextual) (by simp +contextual), h11, h4.trans (by simp only [runStm, h6, h12])⟩
        have : x ≠ y := by rintro rfl; simp at hy
        simp [cfind, this]

theorem tailId_bind {a b : Exp} {x : Sym} (ha : TailFn O ap ap' caps caps' a) (hb : TailId O ap ap' caps caps' b) :
    TailId O ap ap' caps caps' (.bind x a b) := by
  intro S k env env3 w w' ht hbl he hw
  simp only [Exp.tidy] at ht
  obtain ⟨hx, hta, htb⟩ := ht
  have hla := tidy_lets a hta
  simp only [Exp.bound] at hbl
  rw [tailify]
  rcases ha S k env env3 w w' hta (below_part hbl (Nat.le_refl k) (by simp +contextual)) (g := fun ra k =>
      (.bind x ra (tailify b .id k).1, (tailify b .id k).2)) (fun _ k => tailify_le b .id k idLe) he hw with
    ⟨h1, h2⟩ | ⟨o, w1, r, k1, env3', w1', h1, h2, h3, h4⟩
  · simp only [evalE, h1]
    refine Eq.subst (motive := fun x => RRel RTail _ x) h2.symm .none
  · simp only [evalE, h1]
    refine Eq.subst (motive := fun x => RRel RTail _ x) h4.symm ?_
    simp only [runStm]
    rcases get_cases h2.world h3 with ⟨h5, h6⟩ | ⟨v, v', h5, h6, h7⟩
    · simp only [h5, h6]; exact .none
    · simp only [h5, h6]
      exact hb (x :: S) k1 _ _ w1 w1' htb (below_mono (below_sub hbl (by simp +contextual; grind)) h2.le)
          (envAll_cons (h2.env hla hbl he) x h7) h2.world

/-! ### lists of operands, primitives, calls -/

theorem tailFns_nil : TailFns O ap ap' caps caps' [] := by
  intro S g k env env3 w w' ht hbl hg he hw
  exact .inr ⟨[], w, [], k, env3, w', rfl, ⟨Nat.le_refl k, hw, fun _ _ _ => rfl, by simp [Smp.readss]⟩, .nil,
    by rw [tailifyList]⟩

theorem tailFns_cons {e : Exp} {es : List Exp} (ha : TailFn O ap ap' caps caps' e) (hb : TailFns O ap ap' caps caps' es) :
    TailFns O ap ap' caps caps' (e :: es) := by
  intro S g k env env3 w w' ht hbl hg he hw
  simp only [Exp.tidys] at ht
  obtain ⟨hta, htb, hdis⟩ := ht
  have hla := tidy_lets e hta
  have hlb := tidys_lets es htb
  simp only [Exp.bounds] at hbl
  rw [tailifyList]
  rcases ha S (k := k) (env := env) (env3 := env3) (w := w) (w' := w') hta
      (below_part hbl (Nat.le_refl k) (by simp +contextual)) (g := fun r k =>
      tailifyList es (fun rs k => g (r :: rs) k) k) (fun r k => tailifyList_le es _ k fun rs k => hg (r :: rs) k) he hw with
    ⟨h1, h2⟩ | ⟨o, w1, r, k1, env3', w1', h1, h2, h3, h4⟩
  · exact .inl ⟨by simp only [evalOs, h1], h2⟩
  · simp only [evalOs, h1, Exp.letss]
    rcases hb S (fun rs k => g (r :: rs) k) k1 env env3' w1 w1' htb (below_part hbl h2.le (by simp +contextual))
        (fun rs k => hg (r :: rs) k) (h2.env hla hbl he) h2.world with
      ⟨h9, h10⟩ | ⟨os, w2, rs, k2, env4, w2', h9, h10, h11, h12⟩
    · exact .inl ⟨by rw [h9], h4.trans h10⟩
    · have hr := h2.trans (lets := e.lets ++ Exp.letss es) (Nat.le_refl _) h10 (fun _ _ => rfl) (by simp +contextual)
        (by simp +contextual) (by simp +contextual)
      refine .inr ⟨o :: os, w2, r :: rs, k2, env4, w2', by rw [h9], ⟨hr.le, hr.world, hr.ext, fun x hx => ?_⟩,
        .cons (h3.ext fun x hx => ?_) h11, h4.trans h12⟩
      · simp only [Smp.readss, List.mem_append] at hx
        rcases hx with hx | hx
        · rcases h2.reads x hx with h | h | h
          · exact .inl h
          · exact .inr (.inl (by simp [h]))
          · exact .inr (.inr (genIn_mono h (Nat.le_refl _) h10.le))
        · exact hr.reads x hx
      · have hbk : Below k (S ++ (e.bound ++ Exp.bounds es)) := hbl
        refine h10.ext x (fun hl => ?_) fun hg => ?_
        · rcases h2.reads x hx with h | h | h
          · exact hlb x hl h
          · exact hdis x h hl
          · exact genIn_not hbk (by simp [letss_bounds es x hl]) h
        · rcases h2.reads x hx with h | h | h
          · exact genIn_not (below_mono hbk h2.le) (by simp [h]) hg
          · exact genIn_not (below_mono hbk h2.le) (by simp [lets_bound e x h]) hg
          · obtain ⟨n, h5, h6, rfl⟩ := h
            obtain ⟨m, h7, h8, h9⟩ := hg
            cases h9
            omega

/-- the cases of operands whose values are needed -/
theorem settle_cases {env : CEnv Code3} {w : CWorld Code2 W} {w' : CWorld Code3 W}
    (hw : WRel RTail w w') {os : List (COperand Code2)} {es : List Smp} (h : OpRels W caps' env os es) :
    (csettle w os = none ∧ evalSmps caps' env w' es = none) ∨
    ∃ vs vs', csettle w os = some vs ∧ evalSmps caps' env w' es = some vs' ∧ VRels RTail vs vs' := by
  have := settle_rel hw h
  generalize ha : csettle w os = a at this
  generalize hb : evalSmps caps' env w' es = b at this
  cases this with
  | none => exact .inl ⟨rfl, rfl⟩
  | some h => exact .inr ⟨_, _, rfl, rfl, h⟩

theorem rrel_cases {R : CodeRel A B} {r : Option (CVal A × CWorld A W)} {r' : Option (CVal B × CWorld B W)}
    (h : RRel R r r') : (r = none ∧ r' = none) ∨ ∃ u v w w', r = some (u, w) ∧ r' = some (v, w') ∧ VRel R u v ∧ WRel R w w' := by
  cases h with
  | none => exact .inl ⟨rfl, rfl⟩
  | some h1 h2 => exact .inr ⟨_, _, _, _, rfl, rfl, h1, h2⟩

/-- a new variable for a result -/
theorem reached_tmp {S lets rs : List Sym} {k k1 : Nat} {env3 env3' : CEnv Code3} {w1 w2 : CWorld Code2 W}
    {w1' w2' : CWorld Code3 W} (h : Reached S lets k env3 w1 rs k1 env3' w1') (hw : WRel RTail w2 w2') (v' : CVal Code3) :
    Reached S lets k env3 w2 (Smp.ref (.loc (.gen k1))).reads (k1 + 1) ((.gen k1, v') :: env3') w2' where
  le := Nat.le_trans h.le (Nat.le_succ _)
  world := hw
  ext := fun x hx hg => by
    have : Sym.gen k1 ≠ x := by rintro rfl; exact hg ⟨k1, h.le, Nat.lt_succ_self _, rfl⟩
    simp only [cfind, this, if_false]
    exact h.ext x hx fun h => hg (genIn_mono h (Nat.le_refl _) (Nat.le_succ _))
  reads := fun x hx => by
    simp only [Smp.reads, Ref.free, List.mem_singleton] at hx
    exact .inr (.inr ⟨k1, h.le, Nat.lt_succ_self _, hx⟩)

theorem opRel_tmp {k : Nat} {env : CEnv Code3} {v : CVal Code2} {v' : CVal Code3} (h : VRel RTail v v') :
    OpRel W caps' ((.gen k, v') :: env) (.now v) (.ref (.loc (.gen k))) :=
  ⟨v', h, fun _ => by simp [evalSmp, Ref.get, cfind]⟩

theorem finishPrim_le (p : String) {next : Next} (h : NextLe next.ap) (xs : List Smp) (k : Nat) :
    k ≤ (finishPrim p next xs k).2 := Nat.le_trans (Nat.le_succ k) (h _ (k + 1))

theorem tailFn_prim (hO : Parametric O) {p : String} {es : List Exp} (ha : TailFns O ap ap' caps caps' es) :
    TailFn O ap ap' caps caps' (.prim p es) := by
  intro S g k env env3 w w' ht hbl hg he hw
  simp only [Exp.tidy] at ht
  simp only [Exp.bound] at hbl
  rw [tailify]
  rcases ha S (finishPrim p (.fn g)) k env env3 w w' ht hbl (finishPrim_le p hg) he hw with
    ⟨h1, h2⟩ | ⟨os, w1, rs, k1, env3', w1', h1, h2, h3, h4⟩
  · exact .inl ⟨by simp only [evalE, h1], h2⟩
  · simp only [evalE, h1, Exp.lets]
    rcases settle_cases h2.world h3 with ⟨h5, h6⟩ | ⟨vs, vs', h5, h6, h7⟩
    · exact .inl ⟨by rw [h5], h4.trans (by simp only [finishPrim, runStm, h6])⟩
    · rcases rrel_cases (cprim_rel hO (p := p) h7 h2.world) with ⟨h8, h9⟩ | ⟨u, v, w2, w2', h8, h9, h10, h11⟩
      · exact .inl ⟨by simp [h5, h8], h4.trans (by simp only [finishPrim, runStm, h6, h9])⟩
      · exact .inr ⟨.now u, w2, .ref (.loc (.gen k1)), k1 + 1, (.gen k1, v) :: env3', w2', by simp [h5, h8],
          reached_tmp h2 h11 v, opRel_tmp h10, h4.trans (by simp only [finishPrim, runStm, h6, h9]; rfl)⟩

theorem tailId_prim (hO : Parametric O) {p : String} {es : List Exp} (ha : TailFns O ap ap' caps caps' es) :
    TailId O ap ap' caps caps' (.prim p es) := by
  intro S k env env3 w w' ht hbl he hw
  simp only [Exp.tidy] at ht
  simp only [Exp.bound] at hbl
  rw [tailify]
  rcases ha S (finishPrim p .id) k env env3 w w' ht hbl (finishPrim_le p idLe) he hw with
    ⟨h1, h2⟩ | ⟨os, w1, rs, k1, env3', w1', h1, h2, h3, h4⟩
  · simp only [evalE, h1, h2]; exact .none
  · simp only [evalE, h1, h4, finishPrim, runStm]
    rcases settle_cases h2.world h3 with ⟨h5, h6⟩ | ⟨vs, vs', h5, h6, h7⟩
    · simp only [h5, h6]; exact .none
    · simp only [h5, h6]
      rcases rrel_cases (cprim_rel hO (p := p) h7 h2.world) with ⟨h8, h9⟩ | ⟨u, v, w2, w2', h8, h9, h10, h11⟩
      · simp only [h8, h9]; exact .none
      · simp only [h8, h9, Next.ap, runStm, evalSmp, Ref.get, cfind, Option.map_some, finish, COperand.get, if_true]
        exact .some h10 h11

/-- the operator and the operands of a call as one list -/
def callNext (next : Next) : List Smp → Nat → Stm × Nat
  | [], k => (.ret (.const .nil), k)
  | f :: args, k => finishCall next f args k

theorem tailify_app (f : Exp) (args : List Exp) (next : Next) (k : Nat) :
    tailify (.app f args) next k = tailifyList (f :: args) (callNext next) k := by
  rw [tailify, tailifyList]; rfl

theorem callNext_le {next : Next} (h : NextLe next.ap) (xs : List Smp) (k : Nat) : k ≤ (callNext next xs k).2 := by
  cases xs with
  | nil => exact Nat.le_refl k
  | cons f args =>
    cases next with
    | id => exact Nat.le_refl k
    | fn g => exact Nat.le_trans (Nat.le_succ k) (h _ (k + 1))

/-- what evaluating a call is, with the operator among the operands -/
theorem evalE_app (f : Exp) (args : List Exp) (env : CEnv Code2) (w : CWorld Code2 W) :
    evalE O ap caps (.app f args) env w =
      match evalOs O ap caps (f :: args) env w with
      | some (os, w) =>
        match csettle w os with
        | some (g :: vs) => (ap g vs w).map fun r => (.now r.1, r.2)
        | _ => none
      | none => none := by
  simp only [evalE, evalOs]
  cases evalE O ap caps f env w with
  | none => rfl
  | some r =>
    simp only
    cases evalOs O ap caps args env r.2 <;> rfl

theorem settle_length {w : CWorld B W} : ∀ {os : List (COperand B)} {vs : List (CVal B)}, csettle w os = some vs →
    vs.length = os.length
  | [], _, h => by simp only [csettle, Option.some.injEq] at h; subst h; rfl
  | o :: os, vs, h => by
    simp only [csettle] at h
    split at h
    · rename_i v us h1 h2
      simp only [Option.some.injEq] at h
      subst h
      simp [settle_length h2]
    · simp at h

theorem evalOs_length : ∀ {es : List Exp} {env : CEnv Code2} {w w1 : CWorld Code2 W} {os}, evalOs O ap caps es env w = some (os, w1) →
    os.length = es.length
  | [], env, w, w1, os, h => by simp only [evalOs, Option.some.injEq, Prod.mk.injEq] at h; simp [← h.1]
  | e :: es, env, w, w1, os, h => by
    simp only [evalOs] at h
    split at h
    · split at h
      · rename_i h2
        simp only [Option.some.injEq, Prod.mk.injEq] at h
        simp [← h.1, evalOs_length h2]
      · simp at h
    · simp at h

/-- the operands of a call when their values are needed -/
theorem call_cases {f : Exp} {args : List Exp} {env : CEnv Code2} {w0 : CWorld Code2 W}
    {env3 : CEnv Code3} {w : CWorld Code2 W} {w' : CWorld Code3 W}
    (hw : WRel RTail w w') {os : List (COperand Code2)} {es : List Smp} (hev : evalOs O ap caps (f :: args) env w0 = some (os, w))
    (h : OpRels W caps' env3 os es) :
    ∃ rf rs, es = rf :: rs ∧
    ((csettle w os = none ∧ (evalSmp caps' env3 w' rf = none ∨ evalSmps caps' env3 w' rs = none)) ∨
    ∃ g vs g' vs', csettle w os = some (g :: vs) ∧ evalSmp caps' env3 w' rf = some g' ∧ evalSmps caps' env3 w' rs = some vs' ∧
      VRel RTail g g' ∧ VRels RTail vs vs') := by
  have hl := evalOs_length hev
  cases h with
  | nil => simp at hl
  | @cons o os rf rs h1 h2 =>
    refine ⟨rf, rs, rfl, ?_⟩
    rcases get_cases hw h1 with ⟨h5, h6⟩ | ⟨v, v', h5, h6, h7⟩
    · exact .inl ⟨by simp [csettle, h5], .inl h6⟩
    · rcases settle_cases hw h2 with ⟨h8, h9⟩ | ⟨vs, vs', h8, h9, h10⟩
      · exact .inl ⟨by simp [csettle, h5, h8], .inr h9⟩
      · exact .inr ⟨v, vs, v', vs', by simp [csettle, h5, h8], h6, h9, h7, h10⟩

theorem tailFn_app (hap : ApRel RTail ap ap') {f : Exp} {args : List Exp} (ha : TailFns O ap ap' caps caps' (f :: args)) :
    TailFn O ap ap' caps caps' (.app f args) := by
  intro S g k env env3 w w' ht hbl hg he hw
  have ht : Exp.tidys S caps.length (f :: args) := by simpa only [Exp.tidy, Exp.tidys] using ht
  have hbl : Below k (S ++ Exp.bounds (f :: args)) := by simpa only [Exp.bound, Exp.bounds] using hbl
  rw [tailify_app, evalE_app]
  rcases ha S (callNext (.fn g)) k env env3 w w' ht hbl (callNext_le hg) he hw with
    ⟨h1, h2⟩ | ⟨os, w1, rs, k1, env3', w1', h1, h2, h3, h4⟩
  · exact .inl ⟨by simp only [h1], h2⟩
  · simp only [h1, show (Exp.app f args).lets = Exp.letss (f :: args) by simp only [Exp.lets, Exp.letss]]
    obtain ⟨rf, rs, rfl, h | ⟨g', vs, g'', vs', h5, h6, h6', h7, h7'⟩⟩ := call_cases h2.world h1 h3
    · obtain ⟨h5, h6⟩ := h
      refine .inl ⟨by rw [h5], h4.trans ?_⟩
      simp only [callNext, finishCall, runStm]
      rcases h6 with h6 | h6
      · simp only [h6]
      · rw [h6]; split <;> simp_all
    · rcases rrel_cases (hap _ _ _ _ _ _ h7 h7' h2.world) with ⟨h8, h9⟩ | ⟨u, v, w2, w2', h8, h9, h10, h11⟩
      · exact .inl ⟨by simp [h5, h8], h4.trans (by simp only [callNext, finishCall, runStm, h6, h6', h9])⟩
      · exact .inr ⟨.now u, w2, .ref (.loc (.gen k1)), k1 + 1, (.gen k1, v) :: env3', w2', by simp [h5, h8],
          reached_tmp h2 h11 v, opRel_tmp h10,
          h4.trans (by simp only [callNext, finishCall, runStm, h6, h6', h9, surviving]; rfl)⟩

theorem tailId_app (hap : ApRel RTail ap ap') {f : Exp} {args : List Exp} (ha : TailFns O ap ap' caps caps' (f :: args)) :
    TailId O ap ap' caps caps' (.app f args) := by
  intro S k env env3 w w' ht hbl he hw
  have ht : Exp.tidys S caps.length (f :: args) := by simpa only [Exp.tidy, Exp.tidys] using ht
  have hbl : Below k (S ++ Exp.bounds (f :: args)) := by simpa only [Exp.bound, Exp.bounds] using hbl
  rw [tailify_app, evalE_app]
  rcases ha S (callNext .id) k env env3 w w' ht hbl (callNext_le idLe) he hw with
    ⟨h1, h2⟩ | ⟨os, w1, rs, k1, env3', w1', h1, h2, h3, h4⟩
  · simp only [h1, h2]; exact .none
  · simp only [h1, h4]
    obtain ⟨rf, rs, rfl, h | ⟨g', vs, g'', vs', h5, h6, h6', h7, h7'⟩⟩ := call_cases h2.world h1 h3
    · obtain ⟨h5, h6⟩ := h
      simp only [callNext, finishCall, runStm, h5]
      rcases h6 with h6 | h6
      · simp only [h6]; exact .none
      · rw [h6]; split
        · simp_all
        · exact .none
    · simp only [callNext, finishCall, runStm, h5, h6, h6']
      rcases rrel_cases (hap _ _ _ _ _ _ h7 h7' h2.world) with ⟨h8, h9⟩ | ⟨u, v, w2, w2', h8, h9, h10, h11⟩
      · simp only [h8, h9]; exact .none
      · simp only [h8, h9]; exact .some h10 h11

/-! ### all expressions -/

mutual
theorem tailFn (hO : Parametric O) (hap : ApRel RTail ap ap') (hc : VRels RTail caps caps') :
    ∀ e : Exp, TailFn O ap ap' caps caps' e
  | .const d => tailFn_const d
  | .global x => tailFn_global x
  | .ref r => tailFn_ref hc r
  | .closure ps b rs => tailFn_closure hc ps b rs
  | .ite a b c => tailFn_ite (tailFn hO hap hc a) (tailFn hO hap hc b) (tailFn hO hap hc c)
  | .seq a b => tailFn_seq (tailFn hO hap hc a) (tailFn hO hap hc b)
  | .bind x a b => tailFn_bind (tailFn hO hap hc a) (tailFn hO hap hc b)
  | .prim p es => tailFn_prim hO (tailFns hO hap hc es)
  | .app f es => tailFn_app hap (tailFns_cons (tailFn hO hap hc f) (tailFns hO hap hc es))
theorem tailFns (hO : Parametric O) (hap : ApRel RTail ap ap') (hc : VRels RTail caps caps') :
    ∀ es : List Exp, TailFns O ap ap' caps caps' es
  | [] => tailFns_nil
  | e :: es => tailFns_cons (tailFn hO hap hc e) (tailFns hO hap hc es)
end

theorem tailId (hO : Parametric O) (hap : ApRel RTail ap ap') (hc : VRels RTail caps caps') :
    ∀ e : Exp, TailId O ap ap' caps caps' e
  | .const d => tailId_ret (ra := fun _ k => (.const d, k)) (fun _ _ => by rw [tailify]) (tailFn_const d)
  | .global x => tailId_ret (ra := fun _ k => (.global x, k)) (fun _ _ => by rw [tailify]) (tailFn_global x)
  | .ref r => tailId_ret (ra := fun _ k => (.ref r, k)) (fun _ _ => by rw [tailify]) (tailFn_ref hc r)
  | .closure ps b rs => tailId_ret (ra := fun _ k => (.closure ps (tailify b .id k).1 rs, (tailify b .id k).2))
      (fun _ _ => by rw [tailify]) (tailFn_closure hc ps b rs)
  | .ite a b c => tailId_ite (tailFn hO hap hc a) (tailId hO hap hc b) (tailId hO hap hc c)
  | .seq a b => tailId_seq (tailFn hO hap hc a) (tailId hO hap hc b)
  | .bind x a b => tailId_bind (tailFn hO hap hc a) (tailId hO hap hc b)
  | .prim p es => tailId_prim hO (tailFns hO hap hc es)
  | .app f es => tailId_app hap (tailFns_cons (tailFn hO hap hc f) (tailFns hO hap hc es))

theorem cfind_none {A : Type} {x : Sym} : ∀ {env : CEnv A}, x ∉ env.map Prod.fst → cfind x env = none
  | [], _ => rfl
  | (y, v) :: r, h => by
    simp only [List.map_cons, List.mem_cons, not_or] at h
    simp only [cfind]
    rw [if_neg (Ne.symm h.1), cfind_none h.2]

theorem cfind_isSome {A : Type} {x : Sym} : ∀ {env : CEnv A}, x ∈ env.map Prod.fst → ∃ v, cfind x env = some v
  | (y, v) :: r, h => by
    simp only [cfind]
    split
    · exact ⟨v, rfl⟩
    · rename_i hne
      simp only [List.map_cons, List.mem_cons] at h
      exact cfind_isSome (h.resolve_left fun h => hne h.symm)

/-- functions behave the same before and after `tailify` -/
theorem run_tail (hO : Parametric O) : RunRel RTail (run2 O) (run3 (W := W) false O) := by
  intro ap ap' hap caps caps' hc us vs hs w w' hw c c' hR
  obtain ⟨hn, h1, k, h2, h3, h4⟩ := hR
  unfold run2 run3
  rw [h1, h2]
  refine tailId hO hap hc c.2 c.1 k _ _ w w' h3 h4 (fun x hx => ?_) hw
  have h5 := envOn_args (R := RTail) c.1 hs x
  obtain ⟨v, hv⟩ := cfind_isSome (x := x) (env := (c.1.zip us).reverse) (by
    rw [List.map_reverse, List.mem_reverse, List.map_fst_zip (by omega)]; exact hx)
  rw [hv] at h5
  generalize cfind x (c.1.zip vs).reverse = d at h5
  cases h5 with
  | some h => exact ⟨_, _, hv, rfl, h⟩

end

end Cora.Compile
