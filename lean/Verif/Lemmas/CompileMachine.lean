import Verif.Props.CompileLive
import Verif.Model.CompileMachine
import Verif.Lemmas.CompileTail
/-
The machine computes what the programs after the liveness analysis compute.
-/
open Spec.Lang
namespace Cora.Compile
variable {A B W : Type}

/-! ### the machine -/

/-- `go`; if `over` is false, functions are not called with more arguments than they take -/
def goX (over : Bool) (O : Outside W) (units : List (List Lam)) : Nat → Mach W → Option MAct → Option (Mach W)
  | 0, _, _ => none
  | n + 1, s, none =>
    match s.ctx.fn with
    | .exit => some s
    | .code u l =>
      match units[u]? with
      | some code =>
        match code[l]? with
        | some lam =>
          match lam.block O u s with
          | some (s, a) => goX over O units n s (some a)
          | none => none
        | none => none
      | none => none
    | .prim p =>
      match primArity p with
      | some k =>
        match cprim O p (readAt s.stack (s.ctx.bp + 1) k) s.world with
        | some (v, w) => goX over O units n { s with world := w } (some (.ret v))
        | none => none
      | none => none
    | .native id k =>
      match O.native id (readAt s.stack (s.ctx.bp + 1) k) s.world with
      | some (v, w) => goX over O units n { s with world := w } (some (.ret v))
      | none => none
    | .curry =>
      match curryBlock s with
      | some s => goX over O units n s none
      | none => none
  | n + 1, s, some (.ret v) =>
    match s.ret v with
    | some s => goX over O units n s none
    | none => none
  | n + 1, s, some (.call f args) =>
    match f.arity with
    | some a =>
      if args.length = a then goX over O units n (s.enter f args) none
      else if args.length = 0 then goX over O units n s (some (.ret f))
      else if args.length < a then goX over O units n s (some (.ret (.pap f args)))
      else if over = true then
        match goX over O units n (s.enter f (args.take a)).pushExit none with
        | some s => goX over O units n s (some (.call s.res (args.drop a)))
        | none => none
      else none
    | none => none

theorem goX_true (O : Outside W) (units : List (List Lam)) : ∀ (n : Nat) (s : Mach W) (a : Option MAct),
    goX true O units n s a = go O units n s a := by
  intro n
  induction n with
  | zero => intro s a; rfl
  | succ n ih =>
    intro s a
    cases a with
    | none => rw [goX, go]; simp only [ih] <;> rfl
    | some a =>
      cases a with
      | ret v => rw [goX, go]; simp only [ih] <;> rfl
      | call f args => rw [goX, go]; simp only [ih, if_true] <;> rfl

/-! ### runs of the machine -/

section
variable {over : Bool} {O : Outside W} {units : List (List Lam)}

/-- the machine stops in the state `r` -/
def Runs (over : Bool) (O : Outside W) (units : List (List Lam)) (s : Mach W) (a : Option MAct) (r : Mach W) : Prop :=
  ∃ n, ∀ k, n ≤ k → goX over O units k s a = some r

theorem runs_succ {s s1 : Mach W} {a a1 : Option MAct} {r : Mach W} (h : Runs over O units s1 a1 r)
    (hs : ∀ k, goX over O units (k + 1) s a = goX over O units k s1 a1) : Runs over O units s a r := by
  obtain ⟨n, h⟩ := h
  refine ⟨n + 1, fun k hk => ?_⟩
  obtain ⟨k, rfl⟩ : ∃ j, k = j + 1 := ⟨k - 1, by omega⟩
  rw [hs, h k (by omega)]

theorem runs_exit {s : Mach W} (h : s.ctx.fn = .exit) : Runs over O units s none s := by
  refine ⟨1, fun k hk => ?_⟩
  obtain ⟨k, rfl⟩ : ∃ j, k = j + 1 := ⟨k - 1, by omega⟩
  simp only [goX, h]

theorem runs_block {s s1 : Mach W} {a1 : MAct} {r : Mach W} {u l : Nat} {code : List Lam} {lam : Lam}
    (h1 : s.ctx.fn = .code u l) (h2 : units[u]? = some code) (h3 : code[l]? = some lam) (h4 : lam.block O u s = some (s1, a1))
    (h : Runs over O units s1 (some a1) r) : Runs over O units s none r :=
  runs_succ h fun k => by simp only [goX, h1, h2, h3, h4]

theorem runs_prim {s : Mach W} {r : Mach W} {p : String} {n : Nat} {v : MVal} {w : CWorld MCode W}
    (h1 : s.ctx.fn = .prim p) (h2 : primArity p = some n)
    (h3 : cprim O p (readAt s.stack (s.ctx.bp + 1) n) s.world = some (v, w))
    (h : Runs over O units { s with world := w } (some (.ret v)) r) : Runs over O units s none r :=
  runs_succ h fun k => by simp only [goX, h1, h2, h3]

theorem runs_native {s : Mach W} {r : Mach W} {id n : Nat} {v : MVal} {w : CWorld MCode W}
    (h1 : s.ctx.fn = .native id n) (h3 : O.native id (readAt s.stack (s.ctx.bp + 1) n) s.world = some (v, w))
    (h : Runs over O units { s with world := w } (some (.ret v)) r) : Runs over O units s none r :=
  runs_succ h fun k => by simp only [goX, h1, h3]

theorem runs_curry {s s1 : Mach W} {r : Mach W} (h1 : s.ctx.fn = .curry) (h2 : curryBlock s = some s1)
    (h : Runs over O units s1 none r) : Runs over O units s none r :=
  runs_succ h fun k => by simp only [goX, h1, h2]

theorem runs_ret {s s1 : Mach W} {r : Mach W} {v : MVal} (h1 : s.ret v = some s1) (h : Runs over O units s1 none r) :
    Runs over O units s (some (.ret v)) r :=
  runs_succ h fun k => by simp only [goX, h1]

theorem runs_call {s : Mach W} {r : Mach W} {f : MVal} {args : List MVal} (h1 : f.arity = some args.length)
    (h : Runs over O units (s.enter f args) none r) : Runs over O units s (some (.call f args)) r :=
  runs_succ h fun k => by simp only [goX, h1, if_true]

theorem runs_call_zero {s : Mach W} {r : Mach W} {f : MVal} {n : Nat} (h1 : f.arity = some n) (h2 : n ≠ 0)
    (h : Runs over O units s (some (.ret f)) r) : Runs over O units s (some (.call f [])) r :=
  runs_succ h fun k => by
    simp only [goX, h1, List.length_nil, if_true]
    rw [if_neg (fun h => h2 h.symm)]

theorem runs_call_less {s : Mach W} {r : Mach W} {f : MVal} {args : List MVal} {n : Nat} (h1 : f.arity = some n)
    (h2 : args.length ≠ 0) (h3 : args.length < n)
    (h : Runs over O units s (some (.ret (.pap f args))) r) : Runs over O units s (some (.call f args)) r :=
  runs_succ h fun k => by
    simp only [goX, h1]
    rw [if_neg (by omega), if_neg h2, if_pos h3]

theorem runs_call_over {s s1 : Mach W} {r : Mach W} {f : MVal} {args : List MVal} {n : Nat} (h1 : f.arity = some n)
    (ho : over = true) (h3 : n < args.length) (hin : Runs over O units (s.enter f (args.take n)).pushExit none s1)
    (h : Runs over O units s1 (some (.call s1.res (args.drop n))) r) : Runs over O units s (some (.call f args)) r := by
  obtain ⟨n1, hin⟩ := hin
  obtain ⟨n2, h⟩ := h
  refine ⟨n1 + n2 + 1, fun k hk => ?_⟩
  obtain ⟨k, rfl⟩ : ∃ j, k = j + 1 := ⟨k - 1, by omega⟩
  simp only [goX, h1]
  rw [if_neg (by omega), if_neg (by omega), if_neg (by omega), if_pos ho, hin k (by omega)]
  exact h k (by omega)

end

/-! ### registers -/

theorem storeAt_out {st : Nat → MVal} {a p : Nat} {vs : List MVal} (h : p < a ∨ a + vs.length ≤ p) :
    storeAt st a vs p = st p := by
  unfold storeAt
  rw [if_neg (by omega)]

theorem storeAt_in {st : Nat → MVal} {a i : Nat} {vs : List MVal} (h : i < vs.length) :
    storeAt st a vs (a + i) = vs[i] := by
  unfold storeAt
  rw [if_pos (by omega), show a + i - a = i by omega, List.getD_eq_getElem?_getD, List.getElem?_eq_getElem h]; rfl

theorem readAt_storeAt {st : Nat → MVal} {a : Nat} {vs : List MVal} : readAt (storeAt st a vs) a vs.length = vs := by
  unfold readAt
  apply List.ext_getElem
  · simp
  · intro i h1 h2
    simp only [List.getElem_map, List.getElem_range]
    exact storeAt_in h2

theorem readAt_congr {st st' : Nat → MVal} {a n : Nat} (h : ∀ i < n, st (a + i) = st' (a + i)) :
    readAt st a n = readAt st' a n := by
  unfold readAt
  apply List.map_congr_left
  intro i hi
  exact h i (by simpa using hi)

theorem readAt_cons {st : Nat → MVal} {a : Nat} {v : MVal} {vs : List MVal} :
    readAt (storeAt st a (v :: vs)) (a + 1) vs.length = vs := by
  unfold readAt
  apply List.ext_getElem
  · simp
  · intro i h1 h2
    simp only [List.getElem_map, List.getElem_range]
    rw [show a + 1 + i = a + (i + 1) by omega, storeAt_in (by simpa using h2)]
    rfl

theorem storeAt_head {st : Nat → MVal} {a : Nat} {v : MVal} {vs : List MVal} : storeAt st a (v :: vs) a = v := by
  have := storeAt_in (st := st) (a := a) (i := 0) (vs := v :: vs) (by simp)
  simpa using this

/-! ### code -/

mutual
/-- functions use no local variable but their parameters -/
def Smp.wf : Smp → Prop
  | .const _ => True
  | .global _ => True
  | .ref _ => True
  | .closure ps body _ => (∀ x ∈ body.free, x ∈ ps) ∧ body.wf
def Stm.wf : Stm → Prop
  | .ret e => e.wf
  | .tail f args => f.wf ∧ Smp.wfs args
  | .call f args _ k _ => f.wf ∧ Smp.wfs args ∧ k.wf
  | .bind _ e s => e.wf ∧ s.wf
  | .prim _ _ args s => Smp.wfs args ∧ s.wf
  | .seq e s => e.wf ∧ s.wf
  | .ite e a b => e.wf ∧ a.wf ∧ b.wf
def Smp.wfs : List Smp → Prop
  | [] => True
  | e :: es => e.wf ∧ Smp.wfs es
end

/-- the code of functions and where it is -/
def RM (units : List (List Lam)) (n _ : Nat) (c : Code3) (c' : MCode) : Prop :=
  ∃ (s : Stm) (code0 tail : List Lam), c.2 = s.liveness ∧ s.wf ∧ (∀ x ∈ s.free, x ∈ c.1) ∧ c.1.length = n ∧
    units[c'.unit]? = some ((collectStm s.liveness code0).2 ++ lambdaFinal c.1 (collectStm s.liveness code0).1 :: tail) ∧
    c'.label = (collectStm s.liveness code0).2.length ∧
    c'.nframe = frameSize (lambdaFinal c.1 (collectStm s.liveness code0).1)

/-- the variables have related values -/
def EnvDef (R : CodeRel A B) (xs : List Sym) (env : CEnv A) (env' : CEnv B) : Prop :=
  ∀ x ∈ xs, ∃ v v', cfind x env = some v ∧ cfind x env' = some v' ∧ VRel R v v'

theorem EnvDef.sub {R : CodeRel A B} {xs ys : List Sym} {env : CEnv A} {env' : CEnv B} (h : EnvDef R ys env env')
    (hs : ∀ x ∈ xs, x ∈ ys) : EnvDef R xs env env' := fun x hx => h x (hs x hx)

theorem EnvDef.on {R : CodeRel A B} {xs : List Sym} {env : CEnv A} {env' : CEnv B} (h : EnvDef R xs env env') :
    EnvOn R xs env env' := fun x hx => by
  obtain ⟨v, v', h1, h2, h3⟩ := h x hx
  rw [h1, h2]
  exact .some h3

theorem EnvDef.cons {R : CodeRel A B} {xs ys : List Sym} {x : Sym} {u : CVal A} {v : CVal B} {env : CEnv A} {env' : CEnv B}
    (h : EnvDef R ys env env') (hu : VRel R u v) (hs : ∀ y ∈ xs, y ≠ x → y ∈ ys) :
    EnvDef R xs ((x, u) :: env) ((x, v) :: env') := by
  intro y hy
  by_cases hx : x = y
  · exact ⟨u, v, by simp [cfind, hx], by simp [cfind, hx], hu⟩
  · obtain ⟨a, b, h1, h2, h3⟩ := h y (hs y hy fun h => hx h.symm)
    exact ⟨a, b, by simp [cfind, hx, h1], by simp [cfind, hx, h2], h3⟩

/-- `code` is the beginning of `all` -/
def Starts (code all : List Lam) : Prop := ∃ tail, all = code ++ tail

theorem Starts.le {a b c : List Lam} (h : ∃ new, b = a ++ new) (hb : Starts b c) : Starts a c := by
  obtain ⟨n, rfl⟩ := h
  obtain ⟨t, rfl⟩ := hb
  exact ⟨n ++ t, by simp⟩

section
variable {units : List (List Lam)}

/-- operands -/
theorem evalC_sim {u : Nat} {code : List Lam} (hu : units[u]? = some code) {caps : List (CVal Code3)} {caps' : List MVal}
    (hc : VRels (RM units) caps caps') {env : CEnv Code3} {env' : CEnv MCode} {w : CWorld Code3 W} {w' : CWorld MCode W}
    (hw : WRel (RM units) w w') (e : Smp) (code0 : List Lam) (hwf : e.wf)
    (hs : Starts (collectSmp e.liveness code0).2 code) (he : EnvDef (RM units) e.free env env') :
    VOpt (RM units) (evalSmp caps env w e.liveness) (evalC u caps' env' w' (collectSmp e.liveness code0).1) := by
  cases e with
  | const d => exact .some (vrel_cval d)
  | global x => exact hw.globals x
  | ref r => exact getRef_rel hc r (by simpa [Smp.free] using he.on)
  | closure ps body frees =>
    simp only [Smp.liveness, collectSmp, evalSmp, evalC]
    have := getRefs_rel hc frees fun r hr => he.on.sub fun x hx => by
      rw [Smp.free, mem_foldl_refs]; exact .inr ⟨r, hr, hx⟩
    generalize getRefs env caps frees = a at this
    generalize getRefs env' caps' frees = b at this
    cases this with
    | none => exact .none
    | some h =>
      refine .some (.clo ?_ h)
      obtain ⟨tail, hs⟩ := hs
      simp only [Smp.wf] at hwf
      refine ⟨body, code0, tail, rfl, hwf.2, hwf.1, rfl, ?_, rfl, rfl⟩
      rw [hu, hs]
      simp [Smp.liveness, collectSmp]

theorem evalCs_sim {u : Nat} {code : List Lam} (hu : units[u]? = some code) {caps : List (CVal Code3)} {caps' : List MVal}
    (hc : VRels (RM units) caps caps') {env : CEnv Code3} {env' : CEnv MCode} {w : CWorld Code3 W} {w' : CWorld MCode W}
    (hw : WRel (RM units) w w') : ∀ (es : List Smp) (code0 : List Lam), Smp.wfs es →
    Starts (collectSmps (Smp.livenesses es) code0).2 code → EnvDef (RM units) (Smp.frees [] es) env env' →
    VsOpt (RM units) (evalSmps caps env w (Smp.livenesses es)) (evalCs u caps' env' w' (collectSmps (Smp.livenesses es) code0).1)
  | [], _, _, _, _ => .some .nil
  | e :: es, code0, hwf, hs, he => by
    simp only [Smp.wfs] at hwf
    simp only [Smp.livenesses, collectSmps] at hs ⊢
    have h1 := evalC_sim hu hc hw e code0 hwf.1 (hs.le (collectSmps_spec es _).grows)
      (he.sub fun x hx => mem_sfrees_cons.mpr (.inl hx))
    have h2 := evalCs_sim hu hc hw es _ hwf.2 hs (he.sub fun x hx => mem_sfrees_cons.mpr (.inr hx))
    simp only [evalSmps, evalCs]
    generalize evalSmp caps env w e.liveness = a at h1
    generalize evalC u caps' env' w' (collectSmp e.liveness code0).1 = b at h1
    generalize evalSmps caps env w (Smp.livenesses es) = c at h2
    generalize evalCs u caps' env' w' (collectSmps (Smp.livenesses es) (collectSmp e.liveness code0).2).1 = d at h2
    cases h1 with
    | none => exact .none
    | some h1 =>
      cases h2 with
      | none => exact .none
      | some h2 => exact .some (.cons h1 h2)

/-- an operand that has a value -/
theorem evalC_some {u : Nat} {code : List Lam} (hu : units[u]? = some code) {caps : List (CVal Code3)} {caps' : List MVal}
    (hc : VRels (RM units) caps caps') {env : CEnv Code3} {env' : CEnv MCode} {w : CWorld Code3 W} {w' : CWorld MCode W}
    (hw : WRel (RM units) w w') (e : Smp) (code0 : List Lam) (hwf : e.wf)
    (hs : Starts (collectSmp e.liveness code0).2 code) (he : EnvDef (RM units) e.free env env') {v : CVal Code3}
    (hv : evalSmp caps env w e.liveness = some v) :
    ∃ v', evalC u caps' env' w' (collectSmp e.liveness code0).1 = some v' ∧ VRel (RM units) v v' := by
  have := evalC_sim hu hc hw e code0 hwf hs he
  rw [hv] at this
  generalize evalC u caps' env' w' (collectSmp e.liveness code0).1 = b at this
  cases this with
  | some h => exact ⟨_, rfl, h⟩

theorem evalCs_some {u : Nat} {code : List Lam} (hu : units[u]? = some code) {caps : List (CVal Code3)} {caps' : List MVal}
    (hc : VRels (RM units) caps caps') {env : CEnv Code3} {env' : CEnv MCode} {w : CWorld Code3 W} {w' : CWorld MCode W}
    (hw : WRel (RM units) w w') (es : List Smp) (code0 : List Lam) (hwf : Smp.wfs es)
    (hs : Starts (collectSmps (Smp.livenesses es) code0).2 code) (he : EnvDef (RM units) (Smp.frees [] es) env env')
    {vs : List (CVal Code3)} (hv : evalSmps caps env w (Smp.livenesses es) = some vs) :
    ∃ vs', evalCs u caps' env' w' (collectSmps (Smp.livenesses es) code0).1 = some vs' ∧ VRels (RM units) vs vs' := by
  have := evalCs_sim hu hc hw es code0 hwf hs he
  rw [hv] at this
  generalize evalCs u caps' env' w' (collectSmps (Smp.livenesses es) code0).1 = b at this
  cases this with
  | some h => exact ⟨_, rfl, h⟩

/-! ### bodies -/

theorem collectCont_grows : ∀ (s : LStm) (cs : List Cont), ∃ new, (collectCont s cs).2 = new ++ cs
  | .ret e, cs => ⟨[], rfl⟩
  | .tail f args, cs => ⟨[], rfl⟩
  | .call f args val k live, cs => by
    obtain ⟨new, h⟩ := collectCont_grows k cs
    exact ⟨⟨val, (collectCont k cs).1, live⟩ :: new, by simp [collectCont, h]⟩
  | .bind x e s, cs => collectCont_grows s cs
  | .prim x p args s, cs => collectCont_grows s cs
  | .seq e s, cs => collectCont_grows s cs
  | .ite e a b, cs => by
    obtain ⟨new, h⟩ := collectCont_grows a cs
    obtain ⟨new', h'⟩ := collectCont_grows b (collectCont a cs).2
    exact ⟨new' ++ new, by simp only [collectCont]; rw [h', h]; simp⟩

/-- the continuations are in the function -/
def Has (lam : Lam) (cs : List Cont) : Prop := ∃ new, lam.conts = cs.reverse ++ new

theorem Has.le {lam : Lam} {cs cs' : List Cont} (h : Has lam cs') (hg : ∃ new, cs' = new ++ cs) : Has lam cs := by
  obtain ⟨n, rfl⟩ := hg
  obtain ⟨m, h⟩ := h
  exact ⟨n.reverse ++ m, by simp [h]⟩

/-- the state after a function has returned -/
structure Returned (R : CodeRel Code3 MCode) (v : CVal Code3) (w : CWorld Code3 W) (fr : MFrame) (rest : List MFrame)
    (lim : Nat) (s s' : Mach W) : Prop where
  ctx : s'.ctx = fr
  frames : s'.frames = rest
  res : VRel R v s'.res
  world : WRel R w s'.world
  stack : ∀ p < lim, s'.stack p = s.stack p

/-- calls are simulated -/
def CallSim (over : Bool) (O : Outside W) (units : List (List Lam)) (ap : Call Code3 W) : Prop :=
  ∀ f args w v w1, ap f args w = some (v, w1) → ∀ (s : Mach W) f' args' fr rest, VRel (RM units) f f' →
    VRels (RM units) args args' → WRel (RM units) w s.world → s.frames = fr :: rest →
    ∃ s', Returned (RM units) v w1 fr rest s.ctx.sp s s' ∧
      ∀ r, Runs over O units s' none r → Runs over O units s (some (.call f' args')) r

theorem getRefs_live {R : CodeRel A B} {env : CEnv A} {env' : CEnv B} : ∀ {live : List Sym}, EnvDef R live env env' →
    ∃ us, getRefs env' [] (live.map Ref.loc) = some us ∧ us.length = live.length ∧
      ∀ x, VOpt R (cfind x (restrict live env)) (cfind x (live.zip us))
  | [], _ => ⟨[], rfl, rfl, fun x => by simpa [restrict, cfind] using VOpt.none⟩
  | y :: live, h => by
    obtain ⟨us, h1, h2, h3⟩ := getRefs_live (live := live) (h.sub (by simp +contextual))
    obtain ⟨v, v', h4, h5, h6⟩ := h y (by simp)
    refine ⟨v' :: us, by simp [getRefs, Ref.get, h5, h1], by simp [h2], fun x => ?_⟩
    have : restrict (y :: live) env = (y, v) :: restrict live env := by
      unfold restrict
      rw [List.filterMap_cons_some (b := (y, v)) (by simp [h4])]
    rw [this]
    simp only [List.zip_cons_cons, cfind]
    split
    · exact .some h6
    · exact h3 x

variable {over : Bool} {O : Outside W}

theorem ret_returned {R : CodeRel Code3 MCode} {v : CVal Code3} {v' : MVal} {w : CWorld Code3 W} {fr : MFrame}
    {rest : List MFrame} {lim : Nat} {s : Mach W} (hv : VRel R v v') (hw : WRel R w s.world) (hf : s.frames = fr :: rest) :
    ∃ s', Returned R v w fr rest lim s s' ∧ ∀ r, Runs over O units s' none r → Runs over O units s (some (.ret v')) r :=
  ⟨{ s with res := v', ctx := fr, frames := rest }, ⟨rfl, rfl, hv, hw, fun _ _ => rfl⟩,
    fun _ h => runs_ret (by simp [Mach.ret, hf]) h⟩

theorem body_sim (hO : Parametric O) {ap : Call Code3 W} (hap : CallSim over O units ap) {u l : Nat} {code : List Lam} {lam : Lam}
    (hu : units[u]? = some code) (hl : code[l]? = some lam) {caps : List (CVal Code3)} {fr : MFrame} {rest : List MFrame} :
    ∀ (s : Stm) (code0 : List Lam) (cs : List Cont) (env : CEnv Code3) (w : CWorld Code3 W) (v : CVal Code3)
      (w1 : CWorld Code3 W) (env' : CEnv MCode) (st : Mach W),
      s.wf → Starts (collectStm s.liveness code0).2 code →
      Has lam (collectCont (collectStm s.liveness code0).1 cs).2 →
      st.ctx.fn = .code u l → VRels (RM units) caps (capturedOf (st.stack st.ctx.bp)) →
      (∀ c ∈ lam.conts, st.ctx.bp + c.live.length < st.ctx.sp) → st.frames = fr :: rest →
      EnvDef (RM units) s.free env env' → WRel (RM units) w st.world →
      runStm true O ap caps s.liveness env w = some (v, w1) →
      ∃ st1 act s', execC O u (collectCont (collectStm s.liveness code0).1 cs).1 env' st = some (st1, act) ∧
        Returned (RM units) v w1 fr rest st.ctx.bp st s' ∧ ∀ r, Runs over O units s' none r → Runs over O units st1 (some act) r
  | .ret e, code0, cs, env, w, v, w1, env', st, hwf, hst, hcs, hfn, hcap, hroom, hfr, he, hw, hrun => by
    simp only [Stm.liveness, runStm, Option.map_eq_some_iff, Prod.mk.injEq] at hrun
    obtain ⟨v0, h1, rfl, rfl⟩ := hrun
    obtain ⟨v', h2, h3⟩ := evalC_some hu hcap hw e code0 hwf hst (by simpa only [Stm.free] using he) h1
    obtain ⟨s', h4, h5⟩ := ret_returned (over := over) (units := units) (O := O) (lim := st.ctx.bp) h3 hw hfr
    exact ⟨st, .ret v', s', by simp [Stm.liveness, collectStm, collectCont, execC, h2], h4, h5⟩
  | .tail f args, code0, cs, env, w, v, w1, env', st, hwf, hst, hcs, hfn, hcap, hroom, hfr, he, hw, hrun => by
    simp only [Stm.liveness, runStm] at hrun
    split at hrun
    · rename_i g vs h1 h2
      simp only [Stm.free] at he
      simp only [Stm.liveness, collectStm] at hst
      obtain ⟨g', h3, h4⟩ := evalC_some hu hcap hw f code0 hwf.1 (hst.le (collectSmps_spec args _).grows)
        (he.sub fun x hx => by rw [mem_sfrees_acc, mem_union]; simp [hx]) h1
      obtain ⟨vs', h5, h6⟩ := evalCs_some hu hcap hw args _ hwf.2 hst (he.sub fun x hx => by rw [mem_sfrees_acc]; simp [hx]) h2
      obtain ⟨s', h7, h8⟩ := hap _ _ _ _ _ hrun { st with ctx := { st.ctx with sp := st.ctx.bp } } g' vs' fr rest h4 h6 hw hfr
      exact ⟨_, _, s', by simp only [Stm.liveness, collectStm, collectCont, execC, h3, h5],
        ⟨h7.ctx, h7.frames, h7.res, h7.world, h7.stack⟩, h8⟩
    · simp at hrun
  | .call f args val k live, code0, cs, env, w, v, w1, env', st, hwf, hst, hcs, hfn, hcap, hroom, hfr, he, hw, hrun => by
    simp only [Stm.liveness, runStm] at hrun
    split at hrun
    · rename_i g vs h1 h2
      split at hrun
      · rename_i u1 w2 hcall
        obtain ⟨hwf1, hwf2, hwf3⟩ := hwf
        have hef : EnvDef (RM units) f.free env env' := he.sub fun x hx => mem_call_free.mpr (.inl hx)
        have hea : EnvDef (RM units) (Smp.frees [] args) env env' := he.sub fun x hx => mem_call_free.mpr (.inr (.inl hx))
        have hel : EnvDef (RM units) (diff k.free [val]) env env' := he.sub fun x hx =>
          mem_call_free.mpr (.inr (.inr (by simpa [mem_diff] using hx)))
        simp only [Stm.liveness, collectStm] at hst hcs
        simp only [collectCont] at hcs
        have hga := (collectSmps_spec args (collectSmp f.liveness code0).2).grows
        have hgk := (collectStm_spec k (collectSmps (Smp.livenesses args) (collectSmp f.liveness code0).2).2).grows
        obtain ⟨g', h3, h4⟩ := evalC_some hu hcap hw f code0 hwf1 (Starts.le hga (Starts.le hgk hst)) hef h1
        obtain ⟨vs', h5, h6⟩ := evalCs_some hu hcap hw args (collectSmp f.liveness code0).2 hwf2 (Starts.le hgk hst) hea h2
        obtain ⟨us, hus, hlen, henv⟩ := getRefs_live hel
        -- the continuation
        obtain ⟨new, hconts⟩ := hcs
        have hnth : lam.conts[(collectCont (collectStm k.liveness (collectSmps (Smp.livenesses args)
            (collectSmp f.liveness code0).2).2).1 cs).2.length]? = some ⟨val, (collectCont (collectStm k.liveness
            (collectSmps (Smp.livenesses args) (collectSmp f.liveness code0).2).2).1 cs).1, diff k.free [val]⟩ := by
          rw [hconts]; simp
        have hhas : Has lam (collectCont (collectStm k.liveness (collectSmps (Smp.livenesses args)
            (collectSmp f.liveness code0).2).2).1 cs).2 := Has.le ⟨new, hconts⟩ ⟨[_], rfl⟩
        generalize hcode1 : (collectSmps (Smp.livenesses args) (collectSmp f.liveness code0).2).2 = code1 at *
        have hroomk := hroom _ (List.mem_of_getElem? hnth)
        simp only at hroomk
        -- the state when the call is made
        let st1 : Mach W := { st with stack := storeAt st.stack (st.ctx.bp + 1) us, frames := { st.ctx with label :=
          (collectCont (collectStm k.liveness code1).1 cs).2.length + 1 } :: st.frames }
        have hself : st1.stack st1.ctx.bp = st.stack st.ctx.bp := storeAt_out (.inl (Nat.lt_succ_self _))
        obtain ⟨s2, h7, h8⟩ := hap _ _ _ _ _ hcall st1 g' vs' { st.ctx with label :=
          (collectCont (collectStm k.liveness code1).1 cs).2.length + 1 } st.frames h4 h6 hw rfl
        have hsp : st1.ctx.sp = st.ctx.sp := rfl
        have hctx2 := h7.ctx
        have hbp2 : s2.ctx.bp = st.ctx.bp := by rw [hctx2]
        have hself2 : s2.stack s2.ctx.bp = st.stack st.ctx.bp := by
          rw [hbp2, h7.stack _ (by omega)]
          exact hself
        have hread : readAt s2.stack (s2.ctx.bp + 1) (diff k.free [val]).length = us := by
          rw [hbp2, ← hlen]
          refine Eq.trans (readAt_congr fun i hi => h7.stack _ (by omega)) ?_
          exact readAt_storeAt
        -- the continuation runs
        obtain ⟨st3, act, s', h9, h10, h11⟩ := body_sim hO hap hu hl k code1 cs _ w2 v w1
          ((val, s2.res) :: (diff k.free [val]).zip us) s2 hwf3 hst hhas (by rw [hctx2]; exact hfn)
          (by rw [hself2]; exact hcap) (by rw [hctx2]; exact hroom) (h7.frames.trans hfr) (fun x hx => by
            by_cases hxv : val = x
            · exact ⟨u1, s2.res, by simp [cfind, hxv], by simp [cfind, hxv], h7.res⟩
            · have hmem : x ∈ diff k.free [val] := by simp [mem_diff, hx, Ne.symm hxv]
              obtain ⟨a, b, h12, h13, h14⟩ := hel x hmem
              have h15 := henv x
              simp only [surviving, if_true, cfind, if_neg hxv]
              rw [cfind_restrict, if_pos hmem] at h15 ⊢
              rw [h12] at h15 ⊢
              generalize cfind x ((diff k.free [val]).zip us) = d at h15
              cases h15 with
              | some h => exact ⟨_, _, rfl, rfl, h⟩) h7.world hrun
        refine ⟨st1, .call g' vs', s', ?_, ⟨h10.ctx, h10.frames, h10.res, h10.world, fun p hp => ?_⟩, fun r hr => ?_⟩
        · simp only [Stm.liveness, collectStm, collectCont, execC, hus]
          have h3' : evalC u (capturedOf (storeAt st.stack (st.ctx.bp + 1) us st.ctx.bp)) env' st.world
              (collectSmp f.liveness code0).1 = some g' := by
            rw [show storeAt st.stack (st.ctx.bp + 1) us st.ctx.bp = st.stack st.ctx.bp from hself]; exact h3
          have h5' : evalCs u (capturedOf (storeAt st.stack (st.ctx.bp + 1) us st.ctx.bp)) env' st.world
              (collectSmps (Smp.livenesses args) (collectSmp f.liveness code0).2).1 = some vs' := by
            rw [show storeAt st.stack (st.ctx.bp + 1) us st.ctx.bp = st.stack st.ctx.bp from hself]; exact h5
          rw [hcode1]
          simp only [h3', h5']
          rfl
        · rw [h10.stack p (by omega), h7.stack p (by omega)]
          exact storeAt_out (.inl (by omega))
        · refine h8 r (runs_block (by rw [hctx2]; exact hfn) hu hl (?_ : lam.block O u s2 = some (st3, act)) (h11 r hr))
          unfold Lam.block
          rw [hctx2]
          simp only [hnth]
          rw [hctx2] at hread
          simp only at hread
          rw [hread]
          exact h9
      · simp at hrun
    · simp at hrun
  | .bind x e k, code0, cs, env, w, v, w1, env', st, hwf, hst, hcs, hfn, hcap, hroom, hfr, he, hw, hrun => by
    simp only [Stm.liveness, runStm] at hrun
    split at hrun
    · rename_i v0 h1
      simp only [Stm.free] at he
      simp only [Stm.liveness, collectStm] at hst hcs
      obtain ⟨v', h3, h4⟩ := evalC_some hu hcap hw e code0 hwf.1 (Starts.le (collectStm_spec k _).grows hst)
        (he.sub fun y hy => by rw [mem_union]; simp [hy]) h1
      obtain ⟨st1, act, s', h5, h6, h7⟩ := body_sim hO hap hu hl k _ cs _ w v w1 ((x, v') :: env') st hwf.2 hst hcs hfn hcap
        hroom hfr (he.cons h4 fun y hy hne => by rw [mem_union, mem_diff]; simp [hy, hne]) hw hrun
      exact ⟨st1, act, s', by simp only [Stm.liveness, collectStm, collectCont, execC, h3]; exact h5, h6, h7⟩
    · simp at hrun
  | .prim x p args k, code0, cs, env, w, v, w1, env', st, hwf, hst, hcs, hfn, hcap, hroom, hfr, he, hw, hrun => by
    simp only [Stm.liveness, runStm] at hrun
    split at hrun
    · rename_i vs h1
      split at hrun
      · rename_i v0 w2 h2
        simp only [Stm.free] at he
        simp only [Stm.liveness, collectStm] at hst hcs
        obtain ⟨vs', h3, h4⟩ := evalCs_some hu hcap hw args code0 hwf.1 (Starts.le (collectStm_spec k _).grows hst)
          (he.sub fun y hy => by rw [mem_union]; simp [hy]) h1
        rcases rrel_cases (cprim_rel hO (p := p) h4 hw) with ⟨h8, -⟩ | ⟨a, b, wa, wb, h8, h9, h10, h11⟩
        · rw [h2] at h8; simp at h8
        · rw [h2] at h8
          simp only [Option.some.injEq, Prod.mk.injEq] at h8
          obtain ⟨rfl, rfl⟩ := h8
          obtain ⟨st1, act, s', h5, h6, h7⟩ := body_sim hO hap hu hl k _ cs _ w2 v w1 ((x, b) :: env') { st with world := wb }
            hwf.2 hst hcs hfn hcap hroom hfr (he.cons h10 fun y hy hne => by rw [mem_union, mem_diff]; simp [hy, hne]) h11 hrun
          exact ⟨st1, act, s', by simp only [Stm.liveness, collectStm, collectCont, execC, h3, h9]; exact h5,
            ⟨h6.ctx, h6.frames, h6.res, h6.world, h6.stack⟩, h7⟩
      · simp at hrun
    · simp at hrun
  | .seq e k, code0, cs, env, w, v, w1, env', st, hwf, hst, hcs, hfn, hcap, hroom, hfr, he, hw, hrun => by
    simp only [Stm.liveness, runStm] at hrun
    split at hrun
    · rename_i v0 h1
      simp only [Stm.free] at he
      simp only [Stm.liveness, collectStm] at hst hcs
      obtain ⟨v', h3, h4⟩ := evalC_some hu hcap hw e code0 hwf.1 (Starts.le (collectStm_spec k _).grows hst)
        (he.sub fun y hy => by simp [mem_union, hy]) h1
      obtain ⟨st1, act, s', h5, h6, h7⟩ := body_sim hO hap hu hl k _ cs _ w v w1 env' st hwf.2 hst hcs hfn hcap
        hroom hfr (he.sub fun y hy => by simp [mem_union, hy]) hw hrun
      exact ⟨st1, act, s', by simp only [Stm.liveness, collectStm, collectCont, execC, h3]; exact h5, h6, h7⟩
    · simp at hrun
  | .ite e a b, code0, cs, env, w, v, w1, env', st, hwf, hst, hcs, hfn, hcap, hroom, hfr, he, hw, hrun => by
    simp only [Stm.liveness, runStm] at hrun
    split at hrun
    · rename_i v0 h1
      obtain ⟨hwf1, hwf2, hwf3⟩ := hwf
      simp only [Stm.free] at he
      simp only [Stm.liveness, collectStm] at hst hcs
      simp only [collectCont] at hcs
      have hga := (collectStm_spec a (collectSmp e.liveness code0).2).grows
      have hgb := (collectStm_spec b (collectStm a.liveness (collectSmp e.liveness code0).2).2).grows
      obtain ⟨v', h3, h4⟩ := evalC_some hu hcap hw e code0 hwf1 (Starts.le hga (Starts.le hgb hst))
        (he.sub fun y hy => by simp [mem_union, hy]) h1
      have hb := vrel_isTrue h4
      split at hrun
      · rename_i ht
        obtain ⟨st1, act, s', h5, h6, h7⟩ := body_sim hO hap hu hl a _ cs _ w v w1 env' st hwf2 (Starts.le hgb hst)
          (hcs.le (collectCont_grows _ _)) hfn hcap hroom hfr (he.sub fun y hy => by simp [mem_union, hy]) hw hrun
        refine ⟨st1, act, s', ?_, h6, h7⟩
        simp only [Stm.liveness, collectStm, collectCont, execC, h3]
        rw [if_pos (by rw [← hb]; exact ht)]
        exact h5
      · rename_i ht
        obtain ⟨st1, act, s', h5, h6, h7⟩ := body_sim hO hap hu hl b _ _ _ w v w1 env' st hwf3 hst
          hcs hfn hcap hroom hfr (he.sub fun y hy => by simp [mem_union, hy]) hw hrun
        refine ⟨st1, act, s', ?_, h6, h7⟩
        simp only [Stm.liveness, collectStm, collectCont, execC, h3]
        rw [if_neg (by rw [← hb]; exact ht)]
        exact h5
    · simp at hrun

/-! ### calls -/

theorem exact_arity {enter : A → List (CVal A) → List (CVal A) → CWorld A W → Option (CVal A × CWorld A W)}
    {w : CWorld A W} {r : CVal A × CWorld A W} : ∀ {f : CVal A} {args : List (CVal A)}, exact O enter f args w = some r →
      f.arity = some args.length
  | .clo n c caps, args, h => by
    simp only [exact] at h
    split at h
    · rename_i h1; simp [CVal.arity, h1]
    · simp at h
  | .prim p, args, h => by
    simp only [exact] at h
    split at h
    · rename_i h1; simp [CVal.arity, h1]
    · simp at h
  | .native id n, args, h => by
    simp only [exact] at h
    split at h
    · rename_i h1; simp [CVal.arity, h1]
    · simp at h
  | .pap f got, args, h => by
    simp only [exact] at h
    have := exact_arity h
    simp [CVal.arity, this]
  | .int _, _, h => by simp [exact] at h
  | .bool _, _, h => by simp [exact] at h
  | .nil, _, h => by simp [exact] at h
  | .str _, _, h => by simp [exact] at h
  | .sym _, _, h => by simp [exact] at h
  | .cons _ _, _, h => by simp [exact] at h

theorem envDef_args {R : CodeRel A B} (ps : List Sym) {us : List (CVal A)} {vs : List (CVal B)} (h : VRels R us vs)
    (hl : ps.length = us.length) : EnvDef R ps (ps.zip us).reverse (ps.zip vs).reverse := by
  intro x hx
  have h1 := envOn_args ps h x
  obtain ⟨v, h2⟩ := cfind_isSome (x := x) (env := (ps.zip us).reverse) (by
    rw [List.map_reverse, List.mem_reverse, List.map_fst_zip (by omega)]; exact hx)
  rw [h2] at h1
  generalize cfind x (ps.zip vs).reverse = d at h1
  cases h1 with
  | some h => exact ⟨_, _, h2, rfl, h⟩

/-- a function that has been entered with exactly its arguments runs and returns -/
theorem entered_sim (hO : Parametric O) {ap : Call Code3 W} (hap : CallSim over O units ap) {w : CWorld Code3 W} {v : CVal Code3}
    {w1 : CWorld Code3 W} {fr : MFrame} {rest : List MFrame} : ∀ {f : CVal Code3} {args : List (CVal Code3)},
    exact O (run3 true O ap) f args w = some (v, w1) → ∀ (s : Mach W) f' args', VRel (RM units) f f' →
    VRels (RM units) args args' → WRel (RM units) w s.world → s.frames = fr :: rest →
    s.ctx.fn = fnOf f' → s.ctx.label = 0 → s.ctx.sp = s.ctx.bp + nframeOf f' → s.stack s.ctx.bp = f' →
    readAt s.stack (s.ctx.bp + 1) args'.length = args' →
    ∃ s', Returned (RM units) v w1 fr rest s.ctx.bp s s' ∧ ∀ r, Runs over O units s' none r → Runs over O units s none r
  | .clo n c caps, args, h, s, f', args', hf, hs, hw, hfr, hfn, hlab, hsp, h0, hargs => by
    cases hf with
    | @clo _ _ c' _ caps' hR hc =>
      simp only [exact] at h
      split at h
      · rename_i hl
        obtain ⟨b, code0, tail, h1, h2, h3, h4, h5, h6, h7⟩ := hR
        obtain ⟨ps, c3⟩ := c
        simp only at h1 h2 h3 h4 h5 h6 h7
        subst h1
        have hlam : ((collectStm b.liveness code0).2 ++ lambdaFinal ps (collectStm b.liveness code0).1 :: tail)[c'.label]? =
            some (lambdaFinal ps (collectStm b.liveness code0).1) := by
          rw [h6]; simp
        have hsz := frameSize_spec (lambdaFinal ps (collectStm b.liveness code0).1)
        obtain ⟨st1, act, s', h8, h9, h10⟩ := body_sim hO hap h5 hlam b code0 [] (ps.zip args).reverse w v w1
          (ps.zip args').reverse s h2 ⟨_, rfl⟩ ⟨[], by simp [lambdaFinal]⟩ hfn (by rw [h0]; exact hc)
          (fun c hc => by
            rw [hsp]
            have := hsz.2 c hc
            simp only [nframeOf]
            omega) hfr
          ((envDef_args ps hs (by omega)).sub h3) hw h
        refine ⟨s', h9, fun r hr => runs_block hfn h5 hlam ?_ (h10 r hr)⟩
        unfold Lam.block
        rw [hlab]
        simp only
        have : (lambdaFinal ps (collectStm b.liveness code0).1).params = ps := rfl
        rw [this, show ps.length = args'.length by rw [← vrels_length hs]; omega, hargs]
        exact h8
      · simp at h
  | .prim p, args, h, s, f', args', hf, hs, hw, hfr, hfn, hlab, hsp, h0, hargs => by
    cases hf
    simp only [exact] at h
    split at h
    · rename_i ha
      rcases rrel_cases (cprim_rel hO (p := p) hs hw) with ⟨h8, -⟩ | ⟨a, b, wa, wb, h8, h9, h10, h11⟩
      · rw [h] at h8; simp at h8
      · rw [h] at h8
        simp only [Option.some.injEq, Prod.mk.injEq] at h8
        obtain ⟨rfl, rfl⟩ := h8
        obtain ⟨s', h4, h5⟩ := ret_returned (over := over) (units := units) (O := O) (lim := s.ctx.bp) (s := { s with world := wb }) h10 h11 hfr
        refine ⟨s', ⟨h4.ctx, h4.frames, h4.res, h4.world, h4.stack⟩, fun r hr => ?_⟩
        exact runs_prim hfn ha (by rw [vrels_length hs, hargs]; exact h9) (h5 r hr)
    · simp at h
  | .native id n, args, h, s, f', args', hf, hs, hw, hfr, hfn, hlab, hsp, h0, hargs => by
    cases hf
    simp only [exact] at h
    split at h
    · rename_i ha
      rcases rrel_cases (hO.native _ id _ _ _ _ hs hw) with ⟨h8, -⟩ | ⟨a, b, wa, wb, h8, h9, h10, h11⟩
      · rw [h] at h8; simp at h8
      · rw [h] at h8
        simp only [Option.some.injEq, Prod.mk.injEq] at h8
        obtain ⟨rfl, rfl⟩ := h8
        obtain ⟨s', h4, h5⟩ := ret_returned (over := over) (units := units) (O := O) (lim := s.ctx.bp) (s := { s with world := wb }) h10 h11 hfr
        refine ⟨s', ⟨h4.ctx, h4.frames, h4.res, h4.world, h4.stack⟩, fun r hr => ?_⟩
        exact runs_native hfn (by rw [← ha, vrels_length hs, hargs]; exact h9) (h5 r hr)
    · simp at h
  | .pap f got, args, h, s, f', args', hf, hs, hw, hfr, hfn, hlab, hsp, h0, hargs => by
    cases hf with
    | @pap _ f1 _ got' hf1 hg =>
      have ha := exact_arity h
      simp only [exact] at h
      have ha' : (CVal.pap f1 got').arity = some args'.length := by
        rw [← vrels_length hs, ← ha]
        exact (vrel_arity (VRel.pap hf1 hg)).symm
      obtain ⟨s', h4, h5⟩ := entered_sim hO hap h
        { s with
          stack := storeAt s.stack s.ctx.bp (f1 :: (got' ++ args'))
          ctx := { s.ctx with fn := fnOf f1, label := 0 } } f1 (got' ++ args') hf1 (vrels_append hg hs) hw hfr rfl rfl
        hsp storeAt_head readAt_cons
      refine ⟨s', ⟨h4.ctx, h4.frames, h4.res, h4.world, fun p hp => ?_⟩, fun r hr => runs_curry hfn ?_ (h5 r hr)⟩
      · rw [h4.stack p hp]
        exact storeAt_out (.inl hp)
      · unfold curryBlock
        rw [h0]
        simp only [ha', hargs]
        rfl
  | .int _, _, h, _, _, _, _, _, _, _, _, _, _, _, _ => by simp [exact] at h
  | .bool _, _, h, _, _, _, _, _, _, _, _, _, _, _, _ => by simp [exact] at h
  | .nil, _, h, _, _, _, _, _, _, _, _, _, _, _, _ => by simp [exact] at h
  | .str _, _, h, _, _, _, _, _, _, _, _, _, _, _, _ => by simp [exact] at h
  | .sym _, _, h, _, _, _, _, _, _, _, _, _, _, _, _ => by simp [exact] at h
  | .cons _ _, _, h, _, _, _, _, _, _, _, _, _, _, _, _ => by simp [exact] at h

/-- entering -/
theorem enter_sim (hO : Parametric O) {ap : Call Code3 W} (hap : CallSim over O units ap) {w : CWorld Code3 W} {v : CVal Code3}
    {w1 : CWorld Code3 W} {fr : MFrame} {rest : List MFrame} {f : CVal Code3} {args : List (CVal Code3)}
    (h : exact O (run3 true O ap) f args w = some (v, w1)) (s : Mach W) (f' : MVal) (args' : List MVal)
    (hf : VRel (RM units) f f') (hs : VRels (RM units) args args') (hw : WRel (RM units) w s.world) {fs : List MFrame}
    (hfr : fs = fr :: rest) :
    ∃ s', Returned (RM units) v w1 fr rest s.ctx.sp s s' ∧
      ∀ r, Runs over O units s' none r → Runs over O units { s.enter f' args' with frames := fs } none r := by
  obtain ⟨s', h1, h2⟩ := entered_sim hO hap h { s.enter f' args' with frames := fs } f' args' hf hs hw hfr rfl rfl rfl
    storeAt_head readAt_cons
  exact ⟨s', ⟨h1.ctx, h1.frames, h1.res, h1.world, fun p hp => (h1.stack p hp).trans (storeAt_out (.inl hp))⟩, h2⟩

/-- **calls on the machine**: if a call has a result in the program after the liveness analysis, the machine makes the same call,
returns to the frame on top of the call stack and leaves the registers below its own frame as they were -/
theorem call_sim (hO : Parametric O) : ∀ n, CallSim over O units (applyX over O (run3 true O) n)
  | 0 => fun _ _ _ _ _ h => by simp [applyX] at h
  | n + 1 => fun f args w v w1 h s f' args' fr rest hf hs hw hfr => by
    have ih := call_sim hO n
    unfold applyX at h
    have ha := vrel_arity hf
    cases har : f.arity with
    | none => rw [har] at h; simp at h
    | some a =>
      rw [har] at h ha
      have ha := ha.symm
      have hlen := vrels_length hs
      simp only at h
      split at h
      · rename_i h1
        obtain ⟨s', h2, h3⟩ := enter_sim hO ih h s f' args' hf hs hw hfr
        refine ⟨s', h2, fun r hr => runs_call (by rw [ha, ← h1, hlen]) ?_⟩
        exact h3 r hr
      · split at h
        · rename_i h1 h2
          simp only [Option.some.injEq, Prod.mk.injEq] at h
          obtain ⟨rfl, rfl⟩ := h
          obtain rfl : args' = [] := List.length_eq_zero_iff.mp (by omega)
          obtain ⟨s', h4, h5⟩ := ret_returned (over := over) (units := units) (O := O) (lim := s.ctx.sp) hf hw hfr
          exact ⟨s', h4, fun r hr => runs_call_zero ha (by omega) (h5 r hr)⟩
        · split at h
          · rename_i h1 h2 h3
            simp only [Option.some.injEq, Prod.mk.injEq] at h
            obtain ⟨rfl, rfl⟩ := h
            obtain ⟨s', h4, h5⟩ := ret_returned (over := over) (units := units) (O := O) (lim := s.ctx.sp) (.pap hf hs) hw hfr
            exact ⟨s', h4, fun r hr => runs_call_less ha (by omega) (by omega) (h5 r hr)⟩
          · rename_i h1 h2 h3
            split at h
            case isFalse => simp at h
            rename_i ho
            split at h
            · rename_i g w2 hex
              obtain ⟨s1, h4, h5⟩ := enter_sim hO ih hex s f' (args'.take a) hf (vrels_take a hs) hw
                (fs := { (s.enter f' (args'.take a)).ctx with fn := .exit, label := 0 } :: s.frames) rfl
              have hc1 := h4.ctx
              have hin : Runs over O units (s.enter f' (args'.take a)).pushExit none s1 := h5 s1 (runs_exit (by rw [hc1]))
              obtain ⟨s2, h6, h7⟩ := ih _ _ _ _ _ h s1 s1.res (args'.drop a) fr rest h4.res (vrels_drop a hs) h4.world
                (h4.frames.trans hfr)
              refine ⟨s2, ⟨h6.ctx, h6.frames, h6.res, h6.world, fun p hp => ?_⟩, fun r hr =>
                runs_call_over ha ho (by omega) hin (h7 r hr)⟩
              rw [h6.stack p (by rw [hc1]; simp only [Mach.enter]; omega), h4.stack p hp]
            · simp at h

end

end Cora.Compile
