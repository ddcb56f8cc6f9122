import Verif.Lemmas.CompileRel
import Verif.Lemmas.Compile
/-
Liveness analysis: running with only the saved variables gives the same as running with all of them.
-/
open Spec.Lang
namespace Cora.Compile
variable {A B W : Type}

/-- the variables `xs` have the same values -/
def EnvOn (R : CodeRel A B) (xs : List Sym) (env : CEnv A) (env' : CEnv B) : Prop :=
  ∀ x ∈ xs, VOpt R (cfind x env) (cfind x env')

theorem EnvOn.sub {R : CodeRel A B} {xs ys : List Sym} {env env'} (h : EnvOn R ys env env') (hs : ∀ x ∈ xs, x ∈ ys) :
    EnvOn R xs env env' := fun x hx => h x (hs x hx)

theorem EnvOn.cons {R : CodeRel A B} {xs ys : List Sym} {x : Sym} {u v env env'} (h : EnvOn R ys env env')
    (hu : VRel R u v) (hs : ∀ y ∈ xs, y ≠ x → y ∈ ys) : EnvOn R xs ((x, u) :: env) ((x, v) :: env') := by
  intro y hy
  simp only [cfind]
  by_cases hx : x = y
  · rw [if_pos hx, if_pos hx]; exact .some hu
  · rw [if_neg hx, if_neg hx]; exact h y (hs y hy fun h => hx h.symm)

theorem mem_foldl_refs {x : Sym} : ∀ (rs : List Ref) (acc : List Sym),
    x ∈ rs.foldl (fun acc r => union acc r.free) acc ↔ x ∈ acc ∨ ∃ r ∈ rs, x ∈ r.free
  | [], acc => by simp
  | r :: rs, acc => by
    rw [List.foldl_cons, mem_foldl_refs rs, mem_union]
    simp only [List.mem_cons, exists_eq_or_imp, or_assoc]

theorem mem_sfrees_acc {x : Sym} : ∀ {es : List Smp} {acc : List Sym},
    x ∈ Smp.frees acc es ↔ x ∈ acc ∨ x ∈ Smp.frees [] es
  | [], acc => by simp [Smp.frees]
  | e :: es, acc => by
    rw [Smp.frees, Smp.frees, mem_sfrees_acc, mem_sfrees_acc (acc := union [] e.free)]
    simp only [mem_union, List.not_mem_nil, false_or, or_assoc]

theorem mem_sfrees_cons {x : Sym} {e : Smp} {es : List Smp} :
    x ∈ Smp.frees [] (e :: es) ↔ x ∈ e.free ∨ x ∈ Smp.frees [] es := by
  rw [Smp.frees, mem_sfrees_acc, mem_union]; simp

theorem mem_call_free {x : Sym} {f : Smp} {args : List Smp} {val : Sym} {k : Stm} {live : List Sym} :
    x ∈ (Stm.call f args val k live).free ↔
      x ∈ f.free ∨ x ∈ Smp.frees [] args ∨ (x ∈ k.free ∧ x ≠ val) := by
  simp only [Stm.free, mem_union, mem_sfrees_acc (acc := union [] f.free), mem_diff, List.not_mem_nil, false_or,
    List.mem_singleton, or_assoc, ne_eq]

theorem getRef_rel {R : CodeRel A B} {env : CEnv A} {env' : CEnv B} {caps caps'} (hc : VRels R caps caps') (r : Ref)
    (h : EnvOn R r.free env env') : VOpt R (r.get env caps) (r.get env' caps') := by
  cases r with
  | loc x => exact h x (by simp [Ref.free])
  | cap i => exact vrels_get hc i

theorem getRefs_rel {R : CodeRel A B} {env : CEnv A} {env' : CEnv B} {caps caps'} (hc : VRels R caps caps') :
    ∀ (rs : List Ref), (∀ r ∈ rs, EnvOn R r.free env env') → VsOpt R (getRefs env caps rs) (getRefs env' caps' rs)
  | [], _ => .some .nil
  | r :: rs, h => by
    have h1 := getRef_rel hc r (h r (by simp))
    have h2 := getRefs_rel hc rs fun q hq => h q (by simp [hq])
    unfold getRefs
    generalize r.get env caps = a at h1
    generalize r.get env' caps' = b at h1
    generalize getRefs env caps rs = c at h2
    generalize getRefs env' caps' rs = d at h2
    cases h1 with
    | none => exact .none
    | some h1 =>
      cases h2 with
      | none => exact .none
      | some h2 => exact .some (.cons h1 h2)

theorem cfind_restrict (xs : List Sym) (env : CEnv B) (x : Sym) :
    cfind x (restrict xs env) = if x ∈ xs then cfind x env else none := by
  induction xs with
  | nil => simp [restrict, cfind]
  | cons y r ih =>
    unfold restrict at ih ⊢
    cases hy : cfind y env with
    | none =>
      rw [List.filterMap_cons_none (by simp [hy]), ih]
      by_cases hx : x = y
      · subst hx; simp [hy]
      · simp [hx]
    | some u =>
      rw [List.filterMap_cons_some (b := (y, u)) (by simp [hy])]
      simp only [cfind]
      by_cases hx : y = x
      · subst hx; simp [hy]
      · rw [if_neg hx, ih]; simp [Ne.symm hx]

/-- the code of functions before and after the analysis -/
def RLive (_ _ : Nat) (c c' : Code3) : Prop := c' = (c.1, c.2.liveness)

section
variable {caps caps' : List (CVal Code3)} {w w' : CWorld Code3 W}

theorem evalSmp_live (hc : VRels RLive caps caps') (hw : WRel RLive w w') {env env' : CEnv Code3} (e : Smp)
    (h : EnvOn RLive e.free env env') : VOpt RLive (evalSmp caps env w e) (evalSmp caps' env' w' e.liveness) := by
  cases e with
  | const d => exact .some (vrel_cval d)
  | global x => exact hw.globals x
  | ref r => exact getRef_rel hc r (by simpa [Smp.free] using h)
  | closure ps body frees =>
    simp only [Smp.liveness, evalSmp]
    have := getRefs_rel hc frees fun r hr => h.sub fun x hx => by
      rw [Smp.free, mem_foldl_refs]; exact .inr ⟨r, hr, hx⟩
    generalize getRefs env caps frees = a at this
    generalize getRefs env' caps' frees = b at this
    cases this with
    | none => exact .none
    | some h => exact .some (.clo rfl h)

theorem evalSmps_live (hc : VRels RLive caps caps') (hw : WRel RLive w w') {env env' : CEnv Code3} :
    ∀ (es : List Smp), EnvOn RLive (Smp.frees [] es) env env' →
      VsOpt RLive (evalSmps caps env w es) (evalSmps caps' env' w' (Smp.livenesses es))
  | [], _ => .some .nil
  | e :: es, h => by
    have h1 := evalSmp_live hc hw e (h.sub fun x hx => mem_sfrees_cons.mpr (.inl hx))
    have h2 := evalSmps_live hc hw es (h.sub fun x hx => mem_sfrees_cons.mpr (.inr hx))
    unfold evalSmps Smp.livenesses
    simp only
    generalize evalSmp caps env w e = a at h1
    generalize evalSmp caps' env' w' e.liveness = b at h1
    generalize evalSmps caps env w es = c at h2
    generalize evalSmps caps' env' w' (Smp.livenesses es) = d at h2
    cases h1 with
    | none => exact .none
    | some h1 =>
      cases h2 with
      | none => exact .none
      | some h2 => exact .some (.cons h1 h2)
end

theorem runStm_live {O : Outside W} (hO : Parametric O) {ap ap' : Call Code3 W} (hap : ApRel RLive ap ap')
    {caps caps' : List (CVal Code3)} (hc : VRels RLive caps caps') :
    ∀ (s : Stm) (env env' : CEnv Code3) (w w' : CWorld Code3 W), EnvOn RLive s.free env env' → WRel RLive w w' →
      RRel RLive (runStm false O ap caps s env w) (runStm true O ap' caps' s.liveness env' w')
  | .ret e, env, env', w, w', h, hw => by
    have := evalSmp_live hc hw e (by simpa [Stm.free] using h)
    simp only [Stm.liveness, runStm]
    generalize evalSmp caps env w e = a at this
    generalize evalSmp caps' env' w' e.liveness = b at this
    cases this with
    | none => exact .none
    | some h => exact .some h hw
  | .tail f args, env, env', w, w', h, hw => by
    simp only [Stm.free] at h
    have h1 := evalSmp_live hc hw f (h.sub fun x hx => by rw [mem_sfrees_acc, mem_union]; simp [hx])
    have h2 := evalSmps_live hc hw args (h.sub fun x hx => by rw [mem_sfrees_acc]; simp [hx])
    simp only [Stm.liveness, runStm]
    generalize evalSmp caps env w f = a at h1
    generalize evalSmp caps' env' w' f.liveness = b at h1
    generalize evalSmps caps env w args = c at h2
    generalize evalSmps caps' env' w' (Smp.livenesses args) = d at h2
    cases h1 with
    | none => exact .none
    | some h1 =>
      cases h2 with
      | none => exact .none
      | some h2 => exact hap _ _ _ _ _ _ h1 h2 hw
  | .call f args val k live, env, env', w, w', h, hw => by
    have h1 := evalSmp_live hc hw f (h.sub fun x hx => mem_call_free.mpr (.inl hx))
    have h2 := evalSmps_live hc hw args (h.sub fun x hx => mem_call_free.mpr (.inr (.inl hx)))
    simp only [Stm.liveness, runStm]
    generalize evalSmp caps env w f = a at h1
    generalize evalSmp caps' env' w' f.liveness = b at h1
    generalize evalSmps caps env w args = c at h2
    generalize evalSmps caps' env' w' (Smp.livenesses args) = d at h2
    cases h1 with
    | none => exact .none
    | some h1 =>
      cases h2 with
      | none => exact .none
      | some h2 =>
        have h3 := hap _ _ _ _ _ _ h1 h2 hw
        rename_i g g' _ _
        simp only
        generalize ap g _ w = r at h3
        generalize ap' g' _ w' = r' at h3
        cases h3 with
        | none => exact .none
        | some h3 hw3 =>
          refine runStm_live hO hap hc k _ _ _ _ ?_ hw3
          simp only [surviving, Bool.false_eq_true, if_false, if_true]
          refine EnvOn.cons (ys := diff k.free [val]) ?_ h3 fun y hy hne => mem_diff.mpr ⟨hy, by simpa using hne⟩
          intro x hx
          rw [cfind_restrict, if_pos hx]
          rw [mem_diff] at hx
          exact h x (mem_call_free.mpr (.inr (.inr ⟨hx.1, by simpa using hx.2⟩)))
  | .bind x e s, env, env', w, w', h, hw => by
    simp only [Stm.free] at h
    have h1 := evalSmp_live hc hw e (h.sub fun x hx => by rw [mem_union]; simp [hx])
    simp only [Stm.liveness, runStm]
    generalize evalSmp caps env w e = a at h1
    generalize evalSmp caps' env' w' e.liveness = b at h1
    cases h1 with
    | none => exact .none
    | some h1 =>
      exact runStm_live hO hap hc s _ _ _ _ (h.cons h1 fun y hy hne => by
        rw [mem_union, mem_diff]; simp [hy, hne]) hw
  | .prim x p args s, env, env', w, w', h, hw => by
    simp only [Stm.free] at h
    have h1 := evalSmps_live hc hw args (h.sub fun x hx => by rw [mem_union]; simp [hx])
    simp only [Stm.liveness, runStm]
    generalize evalSmps caps env w args = a at h1
    generalize evalSmps caps' env' w' (Smp.livenesses args) = b at h1
    cases h1 with
    | none => exact .none
    | some h1 =>
      have h2 := cprim_rel hO (p := p) h1 hw
      simp only
      generalize cprim O p _ w = r at h2
      generalize cprim O p _ w' = r' at h2
      cases h2 with
      | none => exact .none
      | some h2 hw2 =>
        exact runStm_live hO hap hc s _ _ _ _ (h.cons h2 fun y hy hne => by
          rw [mem_union, mem_diff]; simp [hy, hne]) hw2
  | .seq e s, env, env', w, w', h, hw => by
    simp only [Stm.free] at h
    have h1 := evalSmp_live hc hw e (h.sub fun x hx => by simp [mem_union, hx])
    simp only [Stm.liveness, runStm]
    generalize evalSmp caps env w e = a at h1
    generalize evalSmp caps' env' w' e.liveness = b at h1
    cases h1 with
    | none => exact .none
    | some h1 => exact runStm_live hO hap hc s _ _ _ _ (h.sub fun y hy => by simp [mem_union, hy]) hw
  | .ite e a b, env, env', w, w', h, hw => by
    simp only [Stm.free] at h
    have h1 := evalSmp_live hc hw e (h.sub fun x hx => by simp [mem_union, hx])
    simp only [Stm.liveness, runStm]
    generalize evalSmp caps env w e = u at h1
    generalize evalSmp caps' env' w' e.liveness = v at h1
    cases h1 with
    | none => exact .none
    | some h1 =>
      simp only [vrel_isTrue h1]
      split
      · exact runStm_live hO hap hc a _ _ _ _ (h.sub fun y hy => by simp [mem_union, hy]) hw
      · exact runStm_live hO hap hc b _ _ _ _ (h.sub fun y hy => by simp [mem_union, hy]) hw

theorem envOn_zip {R : CodeRel A B} : ∀ (ps : List Sym) {us : List (CVal A)} {vs : List (CVal B)} (env : CEnv A)
    (env' : CEnv B), VRels R us vs → (∀ x, VOpt R (cfind x env) (cfind x env')) →
    ∀ x, VOpt R (cfind x ((ps.zip us).reverse ++ env)) (cfind x ((ps.zip vs).reverse ++ env'))
  | [], _, _, env, env', h, he => by simpa using he
  | p :: ps, _, _, env, env', .nil, he => by simpa using he
  | p :: ps, _, _, env, env', .cons h1 h, he => by
    intro x
    simp only [List.zip_cons_cons, List.reverse_cons, List.append_assoc, List.singleton_append]
    refine envOn_zip ps _ _ h (fun y => ?_) x
    simp only [cfind]
    split
    · exact .some h1
    · exact he y

theorem envOn_args {R : CodeRel A B} (ps : List Sym) {us : List (CVal A)} {vs : List (CVal B)} (h : VRels R us vs) (x : Sym) :
    VOpt R (cfind x (ps.zip us).reverse) (cfind x (ps.zip vs).reverse) := by
  simpa using envOn_zip ps [] [] h (fun _ => .none) x

/-- functions behave the same before and after the analysis -/
theorem run_live {O : Outside W} (hO : Parametric O) : RunRel RLive (run3 false O) (run3 (W := W) true O) := by
  intro ap ap' hap caps caps' hc us vs hs w w' hw c c' hR
  cases hR
  exact runStm_live hO hap hc _ _ _ _ _ (fun x _ => envOn_args _ hs x) hw

end Cora.Compile
