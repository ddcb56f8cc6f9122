import Verif.Lemmas.InferComplete
/-
The checker always ends, for programs that call only declared functions.
-/
open Spec.Types
namespace Cora.Infer

/-- the checker gives an answer -/
def Answers (e : Exp) (t : Ty) (env : List (String × Ty)) (s : Subst) (σ : St) : Prop :=
  ∃ n r, (∀ m, n ≤ m → checkH m e t env s σ = some r) ∧ (∀ m, n ≤ m → check m e t env s σ = some r)

theorem answers_of {e : Exp} {t : Ty} {env : List (String × Ty)} {s : Subst} {σ : St} {r : URes × St} (ht : t.plain)
    (h : ∃ n, ∀ m, n ≤ m → checkH m e t env s σ = some r) : Answers e t env s σ := by
  obtain ⟨n, h⟩ := h
  refine ⟨n + 1, r, fun m hm => h m (by omega), fun m hm => ?_⟩
  cases m with
  | zero => omega
  | succ m =>
    have := h m (by omega)
    cases t with
    | list a => cases ht
    | _ => simpa only [check] using this

theorem unify_answers {u v : Ty} {s : Subst} (hw : WF s) (hu : u.plain) (hv : v.plain) (hs : ∀ p ∈ s, p.2.plain) :
    ∃ n r, ∀ m, n ≤ m → unify m u v s = some r := by
  obtain ⟨n, r, h⟩ := unify_total hw (.inr ⟨hu, hv, hs⟩)
  exact ⟨n, r, fun m hm => unify_mono hm h⟩

theorem answers_unify {e : Exp} {t T : Ty} {env : List (String × Ty)} {s : Subst} {σ : St}
    (h : ∀ m, checkH (m + 1) e t env s σ = unifyS m T t s σ) (hp : Pre env t s σ) (hT : T.plain) : Answers e t env s σ := by
  obtain ⟨n, r, h1⟩ := unify_answers hp.wf hT hp.tyPlain hp.plain
  refine answers_of (r := (r, σ)) hp.tyPlain ⟨n + 1, fun m hm => ?_⟩
  cases m with
  | zero => omega
  | succ m => rw [h m]; simp only [unifyS, h1 m (by omega), Option.map_some]

theorem check_total {tenv : List (String × Ty)} {L : List String} {op : Bool} {e : Exp} (hc : Calls (Declared tenv) L op e) :
    ∀ {t : Ty} {env : List (String × Ty)} {s : Subst} {σ : St}, L = env.map (·.1) → Pre env t s σ → σ.tenv = tenv →
    (op = true → ∃ a b, t = .arrow (.var a) (.var b) ∧ a ≠ b ∧ SubIn (fun y => y ≠ a ∧ y ≠ b) s ∧
      EnvIn (fun y => y ≠ a ∧ y ≠ b) env) → Answers e t env s σ := by
  have sound := @checkH_sound tenv (fun x => look x tenv) (fun x T h _ _ => h)
  induction hc with
  | num => intro t env s σ hL hp ht _; exact answers_unify (T := .con "int") (fun m => by simp only [checkH]) hp trivial
  | bool => intro t env s σ hL hp ht _; exact answers_unify (T := .con "bool") (fun m => by simp only [checkH]) hp trivial
  | str => intro t env s σ hL hp ht _; exact answers_unify (T := .con "string") (fun m => by simp only [checkH]) hp trivial
  | quote => intro t env s σ hL hp ht _; exact answers_unify (T := .con "symbol") (fun m => by simp only [checkH]) hp trivial
  | @loc L x hx =>
    intro t env s σ hL hp ht _
    subst hL
    obtain ⟨T, hT⟩ := look_some hx
    exact answers_unify (fun m => by simp only [checkH, hT]) hp (hp.envPlain _ (look_mem hT))
  | @glob L x op hx hd =>
    intro t env s σ hL hp ht _
    subst hL
    obtain ⟨T, hT, _, hpl⟩ := hd
    have hn := look_none hx
    exact answers_unify (fun m => by simp only [checkH, hn, ht, hT]) hp hpl
  | @ite L c a b hc ha hb ihc iha ihb =>
    intro t env s σ hL hp ht _
    subst hL
    have p1 := hp.const "bool"
    obtain ⟨n1, ⟨r1, σ1⟩, c1, _⟩ := ihc rfl p1 ht (fun h => by cases h)
    cases r1 with
    | fail =>
      refine answers_of (r := (.fail, σ1)) hp.tyPlain ⟨n1 + 1, fun m hm => ?_⟩
      cases m with
      | zero => omega
      | succ m => simp only [checkH, c1 m (by omega), bindS]
    | succ s1 =>
    obtain ⟨q1, _, _⟩ := sound n1 hc p1 ht (c1 n1 (Nat.le_refl _)) (fun h => by cases h)
    have p2 : Pre env t s1 σ1 := p1.next q1 hp.tyPlain fun y hy => Nat.lt_of_lt_of_le (hp.ty y hy) q1.next
    obtain ⟨n2, ⟨r2, σ2⟩, d2, c2⟩ := iha rfl p2 (by rw [q1.tenv, ht]) (fun h => by cases h)
    cases r2 with
    | fail =>
      refine answers_of (r := (.fail, σ2)) hp.tyPlain ⟨max n1 n2 + 1, fun m hm => ?_⟩
      cases m with
      | zero => omega
      | succ m => simp only [checkH, c1 m (by omega), bindS, c2 m (by omega)]
    | succ s2 =>
    obtain ⟨q2, _, _⟩ := sound n2 ha p2 (by rw [q1.tenv, ht]) (d2 n2 (Nat.le_refl _)) (fun h => by cases h)
    have p3 : Pre env t s2 σ2 := p2.next q2 hp.tyPlain fun y hy => Nat.lt_of_lt_of_le (p2.ty y hy) q2.next
    obtain ⟨n3, r3, _, c3⟩ := ihb rfl p3 (by rw [q2.tenv, q1.tenv, ht]) (fun h => by cases h)
    refine answers_of (r := r3) hp.tyPlain ⟨max n1 (max n2 n3) + 1, fun m hm => ?_⟩
    cases m with
    | zero => omega
    | succ m => simp only [checkH, c1 m (by omega), bindS, c2 m (by omega), c3 m (by omega)]
  | @seq L e1 e2 h1 hfree h2 ih1 ih2 =>
    intro t env s σ hL hp ht _
    subst hL
    have p1 : Pre env (.var σ.next) s (σ.tvars 1) :=
      hp.fresh 1 (fun p hp => .inl hp) trivial (fun y hy => by cases hy; omega)
    obtain ⟨n1, ⟨r1, σ1⟩, c1, _⟩ := ih1 rfl p1 ht (fun h => by cases h)
    cases r1 with
    | fail =>
      refine answers_of (r := (.fail, σ1)) hp.tyPlain ⟨n1 + 1, fun m hm => ?_⟩
      cases m with
      | zero => omega
      | succ m => simp only [checkH, c1 m (by omega), bindS]
    | succ s1 =>
    obtain ⟨q1, _, _⟩ := sound n1 h1 p1 ht (c1 n1 (Nat.le_refl _)) (fun h => by cases h)
    have l1 : σ.next + 1 ≤ σ1.next := q1.next
    have p2 : Pre env t s σ1 :=
      { hp with
        sub := fun p hpm => ⟨by have := (hp.sub p hpm).1; omega, fun y hy => by have := (hp.sub p hpm).2 y hy; omega⟩
        env := fun p hpm y hy => by have := hp.env p hpm y hy; omega
        ty := fun y hy => by have := hp.ty y hy; omega }
    obtain ⟨n2, r2, c2, _⟩ := ih2 rfl p2 (by rw [q1.tenv]; exact ht) (fun h => by cases h)
    refine answers_of (r := r2) hp.tyPlain ⟨max n1 n2 + 1, fun m hm => ?_⟩
    cases m with
    | zero => omega
    | succ m => simp only [checkH, c1 m (by omega), bindS, c2 m (by omega)]
  | @lam L x e he ih =>
    intro t env s σ hL hp ht _
    subst hL
    have p1 : Pre ((x, .var σ.next) :: env) (.var (σ.next + 1)) s (σ.tvars 2) := by
      refine hp.fresh 2 ?_ trivial (fun y hy => by cases hy; omega)
      intro p hp
      rcases List.mem_cons.mp hp with rfl | hp
      · exact .inr ⟨_, rfl, by omega⟩
      · exact .inl hp
    obtain ⟨n1, ⟨r1, σ1⟩, d1, c1⟩ := ih (env := (x, .var σ.next) :: env) rfl p1 ht (fun h => by cases h)
    cases r1 with
    | fail =>
      refine answers_of (r := (.fail, σ1)) hp.tyPlain ⟨n1 + 1, fun m hm => ?_⟩
      cases m with
      | zero => omega
      | succ m => simp only [checkH, c1 m (by omega), bindS]
    | succ s1 =>
    obtain ⟨q1, _, _⟩ := sound n1 (env := (x, .var σ.next) :: env) he p1 ht (d1 n1 (Nat.le_refl _)) (fun h => by cases h)
    obtain ⟨n2, r2, c2⟩ := unify_answers (u := t) (v := .arrow (.var σ.next) (.var (σ.next + 1))) q1.wf hp.tyPlain
      ⟨trivial, trivial⟩ q1.plain
    refine answers_of (r := (r2, σ1)) hp.tyPlain ⟨max n1 n2 + 1, fun m hm => ?_⟩
    cases m with
    | zero => omega
    | succ m => simp only [checkH, c1 m (by omega), bindS, unifyS, c2 m (by omega), Option.map_some]
  | @letE L x e1 e2 h1 h2 ih1 ih2 =>
    intro t env s σ hL hp ht _
    subst hL
    have p1 : Pre env (.var σ.next) s (σ.tvars 1) :=
      hp.fresh 1 (fun p hp => .inl hp) trivial (fun y hy => by cases hy; omega)
    obtain ⟨n1, ⟨r1, σ1⟩, d1, c1⟩ := ih1 rfl p1 ht (fun h => by cases h)
    cases r1 with
    | fail =>
      refine answers_of (r := (.fail, σ1)) hp.tyPlain ⟨n1 + 1, fun m hm => ?_⟩
      cases m with
      | zero => omega
      | succ m => simp only [checkH, c1 m (by omega), bindS]
    | succ s1 =>
    obtain ⟨q1, _, _⟩ := sound n1 h1 p1 ht (d1 n1 (Nat.le_refl _)) (fun h => by cases h)
    have l1 : σ.next + 1 ≤ σ1.next := q1.next
    have p2 : Pre ((x, .var σ.next) :: env) t s1 σ1 :=
      { wf := q1.wf, plain := q1.plain, sub := q1.bound p1
        envPlain := fun p hpm => by
          rcases List.mem_cons.mp hpm with rfl | hpm
          · trivial
          · exact hp.envPlain p hpm
        env := fun p hpm y hy => by
          rcases List.mem_cons.mp hpm with rfl | hpm
          · cases hy; show σ.next < σ1.next; omega
          · have := hp.env p hpm y hy; omega
        tyPlain := hp.tyPlain, ty := fun y hy => by have := hp.ty y hy; omega }
    obtain ⟨n2, r2, _, c2⟩ := ih2 (env := (x, .var σ.next) :: env) rfl p2 (by rw [q1.tenv]; exact ht) (fun h => by cases h)
    refine answers_of (r := r2) hp.tyPlain ⟨max n1 n2 + 1, fun m hm => ?_⟩
    cases m with
    | zero => omega
    | succ m => simp only [checkH, c1 m (by omega), bindS, c2 m (by omega)]
  | @app L f x op hf hx ihf ihx =>
    intro t env s σ hL hp ht _
    subst hL
    have fresh : ∀ y, y < σ.next → y ≠ σ.next ∧ y ≠ σ.next + 1 := fun y hy => ⟨by omega, by omega⟩
    have es : SubIn (fun y => y ≠ σ.next ∧ y ≠ σ.next + 1) s :=
      fun p hpm => ⟨fresh _ (hp.sub p hpm).1, fun y hy => fresh y ((hp.sub p hpm).2 y hy)⟩
    have ee : EnvIn (fun y => y ≠ σ.next ∧ y ≠ σ.next + 1) env := fun p hpm y hy => fresh y (hp.env p hpm y hy)
    have p1 : Pre env (.arrow (.var σ.next) (.var (σ.next + 1))) s (σ.tvars 2) := by
      refine hp.fresh 2 (fun p hp => .inl hp) ⟨trivial, trivial⟩ ?_
      intro y hy
      rcases hy with h | h <;> cases h <;> omega
    have ho : true = true → ∃ a b, Ty.arrow (.var σ.next) (.var (σ.next + 1)) = .arrow (.var a) (.var b) ∧ a ≠ b ∧
        SubIn (fun y => y ≠ a ∧ y ≠ b) s ∧ EnvIn (fun y => y ≠ a ∧ y ≠ b) env := fun _ => ⟨_, _, rfl, by omega, es, ee⟩
    obtain ⟨n1, ⟨r1, σ1⟩, c1, _⟩ := ihf rfl p1 ht ho
    cases r1 with
    | fail =>
      refine answers_of (r := (.fail, σ1)) hp.tyPlain ⟨n1 + 1, fun m hm => ?_⟩
      cases m with
      | zero => omega
      | succ m => simp only [checkH, c1 m (by omega), bindS]
    | succ s1 =>
    obtain ⟨q1, _, k1⟩ := sound n1 hf p1 ht (c1 n1 (Nat.le_refl _)) ho
    obtain ⟨k, A, hA⟩ := q1.wf.total (.var σ.next)
    have l1 : σ.next + 2 ≤ σ1.next := q1.next
    have p2 : Pre env A s1 σ1 := by
      refine p1.next q1 (applySubst_plain q1.plain hA trivial) fun y hy => ?_
      rcases applySubst_vars hA y hy with h | ⟨p, hp, h⟩
      · cases h; omega
      · exact (q1.bound p1 p hp).2 y h
    have t1 : σ1.tenv = tenv := by rw [q1.tenv]; exact ht
    obtain ⟨n2, ⟨r2, σ2⟩, d2, c2⟩ := ihx rfl p2 t1 (fun h => by cases h)
    cases r2 with
    | fail =>
      refine answers_of (r := (.fail, σ2)) hp.tyPlain ⟨max k (max n1 n2) + 1, fun m hm => ?_⟩
      cases m with
      | zero => omega
      | succ m => simp only [checkH, c1 m (by omega), bindS, applySubst_mono (show k ≤ m by omega) hA, c2 m (by omega)]
    | succ s2 =>
    obtain ⟨q2, _, _⟩ := sound n2 hx p2 t1 (d2 n2 (Nat.le_refl _)) (fun h => by cases h)
    obtain ⟨n3, r3, c3⟩ := unify_answers (u := t) (v := .var (σ.next + 1)) q2.wf hp.tyPlain trivial q2.plain
    cases r3 with
    | fail =>
      refine answers_of (r := (.fail, σ2)) hp.tyPlain ⟨max k (max n1 (max n2 n3)) + 1, fun m hm => ?_⟩
      cases m with
      | zero => omega
      | succ m =>
        simp only [checkH, c1 m (by omega), bindS, applySubst_mono (show k ≤ m by omega) hA, c2 m (by omega), unifyS,
          c3 m (by omega), Option.map_some]
    | succ s3 =>
      refine answers_of (r := (.succ (forget σ.next (σ.next + 1) s3), σ2)) hp.tyPlain
        ⟨max k (max n1 (max n2 n3)) + 1, fun m hm => ?_⟩
      cases m with
      | zero => omega
      | succ m =>
        simp only [checkH, c1 m (by omega), bindS, applySubst_mono (show k ≤ m by omega) hA, c2 m (by omega), unifyS,
          c3 m (by omega), Option.map_some]

end Cora.Infer
