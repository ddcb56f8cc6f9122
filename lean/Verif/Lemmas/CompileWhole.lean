import Verif.Spec.CompileRun
import Verif.Lemmas.CompileTidy
import Verif.Lemmas.CompileClosed
/-
All passes of the compiler and the machine together.
-/
open Spec.Lang Spec.Compiled
namespace Cora.Compile
variable {A B W : Type}

/-! ### more compiled files -/

mutual
theorem vrel_mono {R R' : CodeRel A B} (h : ∀ n m c c', R n m c c' → R' n m c c') : ∀ {u : CVal A} {v : CVal B},
    VRel R u v → VRel R' u v
  | .cons a d, _, hv => by cases hv with | cons h1 h2 => exact .cons (vrel_mono h h1) (vrel_mono h h2)
  | .clo _ _ caps, _, hv => by cases hv with | clo h1 h2 => exact .clo (h _ _ _ _ h1) (vrels_mono h h2)
  | .pap f args, _, hv => by cases hv with | pap h1 h2 => exact .pap (vrel_mono h h1) (vrels_mono h h2)
  | .int _, _, hv => by cases hv; exact .int _
  | .bool _, _, hv => by cases hv; exact .bool _
  | .nil, _, hv => by cases hv; exact .nil
  | .str _, _, hv => by cases hv; exact .str _
  | .sym _, _, hv => by cases hv; exact .sym _
  | .prim _, _, hv => by cases hv; exact .prim _
  | .native _ _, _, hv => by cases hv; exact .native _ _
theorem vrels_mono {R R' : CodeRel A B} (h : ∀ n m c c', R n m c c' → R' n m c c') : ∀ {u : List (CVal A)} {v : List (CVal B)},
    VRels R u v → VRels R' u v
  | [], _, hv => by cases hv; exact .nil
  | _ :: _, _, hv => by cases hv with | cons h1 h2 => exact .cons (vrel_mono h h1) (vrels_mono h h2)
end

theorem wrel_mono {R R' : CodeRel A B} (h : ∀ n m c c', R n m c c' → R' n m c c') {w : CWorld A W} {w' : CWorld B W}
    (hw : WRel R w w') : WRel R' w w' := by
  refine ⟨hw.rest, fun x => ?_⟩
  have := hw.globals x
  generalize w.globals x = a at this
  generalize w'.globals x = b at this
  cases this with
  | none => exact .none
  | some h1 => exact .some (vrel_mono h h1)

theorem rm_more {units more : List (List Lam)} (n m : Nat) (c : Code3) (c' : MCode) (h : RM units n m c c') :
    RM (units ++ more) n m c c' := by
  obtain ⟨s, code0, tail, h1, h2, h3, h4, h5, h6⟩ := h
  refine ⟨s, code0, tail, h1, h2, h3, h4, ?_, h6⟩
  rw [List.getElem?_append_left (List.getElem?_eq_some_iff.mp h5).1, h5]

/-! ### the relation between the language and the machine -/

/-- a value of the language and one of the machine, through the intermediate languages -/
def MRel (units : List (List Lam)) (v : Val) (m : MVal) : Prop :=
  ∃ (c2 : CVal Code2) (c3 c4 : CVal Code3), Conv v c2 ∧ VRel RTail c2 c3 ∧ VRel RLive c3 c4 ∧ VRel (RM units) c4 m

/-- worlds -/
def MWorld (units : List (List Lam)) (w : World W) (w' : CWorld MCode W) : Prop :=
  ∃ (w2 : CWorld Code2 W) (w3 w4 : CWorld Code3 W), WorldRel Conv w w2 ∧ WRel RTail w2 w3 ∧ WRel RLive w3 w4 ∧
    WRel (RM units) w4 w'

theorem looks_conv : ∀ (v : Val) (u : CVal Code2), Conv v u → Looks v u
  | .int _, _, h => by cases h; exact .int _
  | .bool _, _, h => by cases h; exact .bool _
  | .nil, _, h => by cases h; exact .nil
  | .str _, _, h => by cases h; exact .str _
  | .sym _, _, h => by cases h; exact .sym _
  | .cons a d, _, h => by cases h with | cons h1 h2 => exact .cons (looks_conv a _ h1) (looks_conv d _ h2)
  | .clo _ _ _, _, h => by cases h; exact .fn rfl rfl
  | .prim _, _, h => by cases h; exact .fn rfl rfl
  | .pap _ _, _, h => by cases h <;> exact .fn rfl rfl
  | .native _ _, _, h => by cases h; exact .fn rfl rfl

theorem looks_vrel {R : CodeRel A B} : ∀ {v : Val} {u : CVal A} {u' : CVal B}, Looks v u → VRel R u u' → Looks v u' := by
  intro v u u' h
  induction h generalizing u' with
  | int => intro h; cases h; exact .int _
  | bool => intro h; cases h; exact .bool _
  | nil => intro h; cases h; exact .nil
  | str => intro h; cases h; exact .str _
  | sym => intro h; cases h; exact .sym _
  | cons _ _ i1 i2 => intro h; cases h with | cons h1 h2 => exact .cons (i1 h1) (i2 h2)
  | fn h1 h2 =>
    intro h
    refine .fn h1 ?_
    cases h <;> first | rfl | simp [isFunctionObject] at h2

theorem looks_mrel {units : List (List Lam)} {v : Val} {m : MVal} (h : MRel units v m) : Looks v m := by
  obtain ⟨c2, c3, c4, h1, h2, h3, h4⟩ := h
  exact looks_vrel (looks_vrel (looks_vrel (looks_conv v c2 h1) h2) h3) h4

theorem looks_world {units : List (List Lam)} {w : World W} {w' : CWorld MCode W} (h : MWorld units w w') :
    Worlds Looks w w' := by
  obtain ⟨w2, w3, w4, h1, h2, h3, h4⟩ := h
  refine ⟨h1.rest.trans (h2.rest.trans (h3.rest.trans h4.rest)), fun x => ?_⟩
  have a1 := h1.globals x
  have a2 := h2.globals x
  have a3 := h3.globals x
  have a4 := h4.globals x
  generalize w.globals x = b1 at *
  generalize w2.globals x = b2 at *
  generalize w3.globals x = b3 at *
  generalize w4.globals x = b4 at *
  generalize w'.globals x = b5 at *
  cases a1 with
  | none => cases a2; cases a3; cases a4; exact .inl ⟨rfl, rfl⟩
  | some a1 =>
    cases a2 with
    | some a2 =>
      cases a3 with
      | some a3 =>
        cases a4 with
        | some a4 => exact .inr ⟨_, _, rfl, rfl, looks_mrel ⟨_, _, _, a1, a2, a3, a4⟩⟩

/-! ### the beginning -/

/-- the value in another intermediate language, if it has no functions other than builtin ones -/
def CVal.recode : CVal A → CVal B
  | .int n => .int n
  | .bool b => .bool b
  | .nil => .nil
  | .str s => .str s
  | .sym x => .sym x
  | .cons a d => .cons a.recode d.recode
  | .prim p => .prim p
  | .native id n => .native id n
  | .clo _ _ _ => .nil
  | .pap _ _ => .nil

theorem plain_recode {v : Val} {u : CVal A} (h : Plain v u) : Plain v (u.recode : CVal B) := by
  induction h with
  | cons _ _ i1 i2 => exact .cons i1 i2
  | _ => constructor

theorem plain_vrel (R : CodeRel B A) {v : Val} {u : CVal A} (h : Plain v u) : VRel R (u.recode : CVal B) u := by
  induction h with
  | cons _ _ i1 i2 => exact .cons i1 i2
  | _ => constructor

theorem plain_conv {v : Val} {u : CVal Code2} (h : Plain v u) : Conv v u := by
  induction h with
  | cons _ _ i1 i2 => exact .cons i1 i2
  | _ => constructor

/-- the world in another intermediate language -/
def recodeWorld (w : CWorld A W) : CWorld B W := { rest := w.rest, globals := fun x => (w.globals x).map CVal.recode }

theorem plain_world {w : World W} {w' : CWorld A W} (h : Worlds Plain w w') : Worlds Plain w (recodeWorld w' : CWorld B W) := by
  refine ⟨h.1, fun x => ?_⟩
  rcases h.2 x with ⟨h1, h2⟩ | ⟨v, u, h1, h2, h3⟩
  · exact .inl ⟨h1, by simp [recodeWorld, h2]⟩
  · exact .inr ⟨v, _, h1, by simp [recodeWorld, h2], plain_recode h3⟩

theorem plain_wrel (R : CodeRel B A) {w : World W} {w' : CWorld A W} (h : Worlds Plain w w') :
    WRel R (recodeWorld w' : CWorld B W) w' := by
  refine ⟨rfl, fun x => ?_⟩
  rcases h.2 x with ⟨h1, h2⟩ | ⟨v, u, h1, h2, h3⟩
  · simp only [recodeWorld, h2, Option.map_none]; exact .none
  · simp only [recodeWorld, h2, Option.map_some]; exact .some (plain_vrel R h3)

theorem plain_start (units : List (List Lam)) {w : World W} {w' : CWorld MCode W} (h : Worlds Plain w w') :
    MWorld units w w' := by
  have h4 := plain_world (B := Code3) h
  have h3 := plain_world (B := Code3) h4
  have h2 := plain_world (B := Code2) h3
  refine ⟨_, _, _, ⟨h2.1, fun x => ?_⟩, plain_wrel RTail h3, plain_wrel RLive h4, plain_wrel (RM units) h⟩
  rcases h2.2 x with ⟨h5, h6⟩ | ⟨v, u, h5, h6, h7⟩
  · rw [h5, h6]; exact .none
  · rw [h5, h6]; exact .some (plain_conv h7)

mutual
theorem binders_syms : ∀ (e : Core) (x : Sym), x ∈ e.binders → x ∈ e.syms
  | .lit _, x => by simp [Core.binders]
  | .quote _, x => by simp [Core.binders]
  | .var _, x => by simp [Core.binders]
  | .lam ps b, x => by
    have := binders_syms b x
    simp only [Core.binders, Core.syms, List.mem_append]
    grind
  | .ite a b c, x => by
    have h1 := binders_syms a x
    have h2 := binders_syms b x
    have h3 := binders_syms c x
    simp only [Core.binders, Core.syms, List.mem_append]
    grind
  | .seq a b, x => by
    have h1 := binders_syms a x
    have h2 := binders_syms b x
    simp only [Core.binders, Core.syms, List.mem_append]
    grind
  | .bind y e b, x => by
    have h1 := binders_syms e x
    have h2 := binders_syms b x
    simp only [Core.binders, Core.syms, List.mem_append, List.mem_cons]
    grind
  | .app f args, x => by
    have h1 := binders_syms f x
    have h2 := binderss_symss args x
    simp only [Core.binders, Core.syms, List.mem_append]
    grind
theorem binderss_symss : ∀ (es : List Core) (x : Sym), x ∈ Core.binderss es → x ∈ Core.symss es
  | [], x => by simp [Core.binderss]
  | e :: es, x => by
    have h1 := binders_syms e x
    have h2 := binderss_symss es x
    simp only [Core.binderss, Core.symss, List.mem_append]
    grind
end

/-! ### one form -/

theorem compile_some {e : Core} {k k' : Nat} {file : List Lam} (h : compile e k = some (file, k')) :
    ∃ e1 k1, parse [] e k = some (e1, k1) ∧ file = collect (tailify (conv [] e1) .id k1).1.liveness := by
  simp only [compile, Option.bind_eq_bind, Option.bind_eq_some_iff] at h
  obtain ⟨⟨e1, k1⟩, h1, h⟩ := h
  simp only [Option.some.injEq, Prod.mk.injEq] at h
  exact ⟨e1, k1, h1, h.1.symm⟩

theorem load_sim {over : Bool} {E : Ext W} {O : Outside W} (hA : Agree E O) (hO : Parametric O) {units : List (List Lam)} {w w1 : World W}
    {e : Core} {v : Val} {o : Operand} (h : XEval over E [] w e v o w1) {k k' : Nat} {file : List Lam} (hk : Below k e.syms)
    (hb : NoPrims e.binders) (hfull : e.full) (ht : e.tidy []) (hc : compile e k = some (file, k'))
    (s : Mach W) (hw : MWorld units w s.world) {n : Nat} (hin : InFrame n s) (hroom : FitsFrame n file) :
    ∃ s', (∃ fuel, goX over O (units ++ [file]) fuel (s.loadSo units.length (file.length - 1)) none = some s') ∧
      MRel (units ++ [file]) v s'.res ∧ MWorld (units ++ [file]) w1 s'.world ∧
      s'.ctx = { s.ctx with fn := .exit, label := 0 } ∧ s'.frames = s.frames ∧ ∀ p < s.ctx.bp, s'.stack p = s.stack p := by
  obtain ⟨e1, k1, hp, rfl⟩ := compile_some hc
  obtain ⟨w2, w3, w4, hw2, hw3, hw4, hw5⟩ := hw
  have hfit : Fits k [] e := ⟨hk, by intro n hn; simp at hn, hb, by intro x hx; simp at hx⟩
  obtain ⟨hl, htidy⟩ := parse_tidy e (S := []) (fvs := []) (S2 := []) hp hfit hfull ht
    ⟨fun x _ hs => by simp at hs, fun x hx => by simp at hx, fun n hn => by simp at hn, fun n hn => by simp at hn⟩
  have hkk := parse_le e hp
  have hbound : Below k1 ([] ++ (conv [] e1).bound) := fun n hn => by
    rcases conv_bound e [] hp hfull _ hn with h1 | ⟨i, _, h2, h3⟩
    · have := hk n (binders_syms e _ h1)
      omega
    · cases h3
      exact h2
  -- closure conversion
  obtain ⟨hget, hsim⟩ := seval_sim hA h
  obtain ⟨o2, w2', ho, hw2', n0, hn0⟩ := hsim [] k k1 e1 [] [] [] w2 hp hfit hfull hl
    (fun x _ => .inl ⟨by simp, rfl⟩) hw2
  obtain ⟨v2, hv2, hvv⟩ := orel_get hw2' ho hget
  have h2 := hn0 n0 (Nat.le_refl _)
  -- tailify
  have h3 := tailId hO (applyX_rel over hO (run_tail hO) n0) .nil (conv [] e1) [] k1 [] [] w2 w3 htidy hbound
    (fun x hx => by simp at hx) hw3
  rw [h2] at h3
  simp only [finish, hv2, Option.map_some] at h3
  rcases rrel_cases h3 with ⟨h4, _⟩ | ⟨_, v3, _, w3', h4, h5, h6, h7⟩
  · simp at h4
  simp only [Option.some.injEq, Prod.mk.injEq] at h4
  obtain ⟨rfl, rfl⟩ := h4
  -- liveness
  have h8 := runStm_live hO (applyX_rel over hO (run_live hO) n0) .nil (tailify (conv [] e1) .id k1).1 [] [] w3 w4
    (fun x _ => .none) hw4
  rw [h5] at h8
  rcases rrel_cases h8 with ⟨h9, _⟩ | ⟨_, v4, _, w4', h9, h10, h11, h12⟩
  · simp at h9
  simp only [Option.some.injEq, Prod.mk.injEq] at h9
  obtain ⟨rfl, rfl⟩ := h9
  -- the machine
  have hcl : (tailify (conv [] e1) .id k1).1.closed [] := tailify_closed _ htidy (fun _ h => h) fun ra k T' _ hr =>
    ⟨hr.1, by simpa only [Next.ap, Stm.free] using hr.2⟩
  generalize hst : (tailify (conv [] e1) .id k1).1 = st at *
  have hlast : (collect st.liveness).length - 1 = (collectStm st.liveness []).2.length := by simp [collect]
  have hu : (units ++ [collect st.liveness])[units.length]? = some (collect st.liveness) := by simp
  have hlam : (collect st.liveness)[(collectStm st.liveness []).2.length]? =
      some (lambdaFinal [] (collectStm st.liveness []).1) := by simp [collect]
  obtain ⟨st1, act, s', g1, g2, g3⟩ := body_sim hO (call_sim hO n0) hu hlam st [] [] [] w4 v4 w4' []
    (s.loadSo units.length (collectStm st.liveness []).2.length) hcl.1 ⟨_, rfl⟩ ⟨[], by simp [lambdaFinal]⟩ rfl
    (by simp only [Mach.loadSo, Mach.pushExit, hin.1]; exact .nil)
    (fun c hc => by
      have := hroom (lambdaFinal [] (collectStm st.liveness []).1) (by simp [collect]) c hc
      simp only [Mach.loadSo, Mach.pushExit, hin.2]
      omega) rfl (fun x hx => absurd (hcl.2 x hx) (by simp))
    (wrel_mono (fun n m c c' => rm_more n m c c') hw5) h10
  have hrun := runs_block (over := over) (s := s.loadSo units.length (collectStm st.liveness []).2.length) rfl hu hlam
    (s1 := st1) (a1 := act) (by simpa [Lam.block, Mach.loadSo, Mach.pushExit, lambdaFinal, readAt] using g1)
    (g3 s' (runs_exit (by rw [g2.ctx])))
  obtain ⟨fuel, hfuel⟩ := hrun
  refine ⟨s', ⟨fuel, by rw [hlast]; exact hfuel fuel (Nat.le_refl _)⟩, ⟨_, _, _, hvv, h6, h11, g2.res⟩,
    ⟨_, _, _, hw2', h7, h12, g2.world⟩, g2.ctx, g2.frames, g2.stack⟩

end Cora.Compile
