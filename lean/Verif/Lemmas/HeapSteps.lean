import Verif.Model.HeapSteps
import Verif.Lemmas.HeapEnds
/-
Runs step by step: they are the runs of Model/HeapMachine.lean, and all of them end.
-/
open Spec.Lang Spec.Compiled
namespace Cora.Compile
open GC
variable {W : Type} [Layout] {malloc : List Nat → Nat} {HO : HOutside W} {units : List (List Lam)}

theorem HSteps.trans {c1 c2 c3 : Conf W} (h1 : HSteps malloc HO units c1 c2) (h2 : HSteps malloc HO units c2 c3) : HSteps malloc HO units c1 c3 := by
  induction h1 with
  | refl => exact h2
  | step h _ ih => exact .step h (ih h2)

theorem HSteps.one {c1 c2 : Conf W} (h : HStep malloc HO units c1 c2) : HSteps malloc HO units c1 c2 := .step h (.refl _)

/-! ### the two ways to run -/

/-- where `HGo` stands -/
def Ctl.of : Option HAct → Ctl
  | none => .go
  | some a => .act a

theorem evals_steps {u : Nat} {k : CStm} {env : HEnv} {r0 : Word} {hp hp' : Heap W} {es : List CSmp} {ws : List Word}
    (h : HEvals u r0 env hp es ws hp') : ∀ {m : HMach W} {vals : List Word} {p : List (List Word)}, m.heap = hp → m.mem m.ctx.bp = r0 →
    HSteps malloc HO units ⟨m, .stm u k env es vals, p⟩ ⟨{ m with heap := hp' }, .stm u k env [] (vals ++ ws), p⟩ := by
  induction h with
  | nil hp =>
    intro m vals p h1 h2
    subst h1
    rw [List.append_nil]
    exact .refl _
  | @cons hp e es w ws hp1 hp2 he _ ih =>
    intro m vals p h1 h2
    subst h1 h2
    have := ih (m := { m with heap := hp1 }) (vals := vals ++ [w]) (p := p) rfl rfl
    rw [List.append_assoc] at this
    exact .step (.operand he) this

theorem exec_steps {u : Nat} {k : CStm} {env : HEnv} {h h' : HMach W} {a : HAct} (hx : HExec HO u k env h h' a) (p : List (List Word)) :
    HSteps malloc HO units ⟨h, .begin u k env, p⟩ ⟨h', .act a, p⟩ := by
  have one : ∀ {k : CStm} {env : HEnv} {h : HMach W} {e : CSmp} {w hp}, k.operands = [e] → HEval u (h.mem h.ctx.bp) env h.heap e w hp →
      HSteps malloc HO units ⟨h, .begin u k env, p⟩ ⟨{ h with heap := hp }, .stm u k env [] [w], p⟩ := by
    intro k env h e w hp hk he
    unfold Ctl.begin
    rw [hk]
    exact .one (.operand he)
  induction hx with
  | ret he => exact (one rfl he).trans (.one (.finish .ret))
  | @tail f args env h g ws hp hp' hf hargs =>
    exact .step (.operand hf) ((evals_steps (m := { h with heap := hp }) (vals := [g]) hargs rfl rfl).trans (.one (.finish .tail)))
  | @call f args label live env h us g ws hp hp' hl hf hargs =>
    exact .step (.operand hf) ((evals_steps (m := { h with heap := hp }) (vals := [g]) hargs rfl rfl).trans (.one (.finish (.call hl))))
  | bind he _ ih => exact (one rfl he).trans (.step (.finish .bind) ih)
  | @prim x q args k env h ws hp w hp' h' a hargs hp _ ih =>
    exact (evals_steps (vals := []) hargs rfl rfl).trans (.step (.finish (.prim hp)) ih)
  | seq he _ ih => exact (one rfl he).trans (.step (.finish .seq) ih)
  | iteTrue he _ ih => exact (one rfl he).trans (.step (.finish .iteTrue) ih)
  | iteFalse he hw _ ih => exact (one rfl he).trans (.step (.finish (.iteFalse hw)) ih)

/-- where a run of `HGo` ends, it says so -/
theorem go_exit {h h' : HMach W} {a : Option HAct} (hg : HGo malloc HO units h a h') : h'.ctx.fn = .exit := by
  induction hg <;> assumption

theorem go_steps {h h' : HMach W} {a : Option HAct} (hg : HGo malloc HO units h a h') :
    ∀ p, HSteps malloc HO units ⟨h, .of a, p⟩ ⟨h', .go, p⟩ := by
  induction hg with
  | exit => intro p; exact .refl _
  | collect h1 h2 _ ih => intro p; exact .step (.collect h1 h2) (ih p)
  | code h1 h2 h3 h4 hb _ ih =>
    intro p
    cases hb with
    | start h5 hx => exact .step (.start h1 h2 h3 h4 h5) ((exec_steps hx p).trans (ih p))
    | cont h5 h6 hx => exact .step (.cont h1 h2 h3 h4 h5 h6) ((exec_steps hx p).trans (ih p))
  | prim h1 h2 h3 h4 _ ih => intro p; exact .step (.prim h1 h2 h3 h4) (ih p)
  | native h1 h2 h3 _ ih => intro p; exact .step (.native h1 h2 h3) (ih p)
  | curry h1 h2 h3 _ ih => intro p; exact .step (.curry h1 h2 h3) (ih p)
  | ret h1 _ ih => intro p; exact .step (.ret h1) (ih p)
  | call h1 h2 _ ih => intro p; exact .step (.call h1 h2) (ih p)
  | callNone h1 h2 _ ih => intro p; exact .step (.callNone h1 h2) (ih p)
  | callLess h1 h2 h3 h4 _ ih => intro p; exact .step (.callLess h1 h2 h3 h4) (ih p)
  | callMore h1 h2 h3 hg _ ih1 ih2 =>
    intro p
    exact .step (.callMore h1 h2 h3) ((ih1 _).trans (.step (.resume (go_exit hg)) (ih2 p)))

/-- a run of `HGo`, then the calls that are pending -/
def Chain (malloc : List Nat → Nat) (HO : HOutside W) (units : List (List Lam)) : HMach W → Option HAct → List (List Word) → HMach W → Prop
  | h, a, [], h' => HGo malloc HO units h a h'
  | h, a, args :: p, h' => ∃ h2, HGo malloc HO units h a h2 ∧ Chain malloc HO units h2 (some (.call h2.res args)) p h'

theorem Chain.first {h1 h2 : HMach W} {a1 a2 : Option HAct} (hf : ∀ h', HGo malloc HO units h2 a2 h' → HGo malloc HO units h1 a1 h')
    {p : List (List Word)} {h' : HMach W} (hc : Chain malloc HO units h2 a2 p h') : Chain malloc HO units h1 a1 p h' := by
  cases p with
  | nil => exact hf _ hc
  | cons args p => obtain ⟨h3, h4, h5⟩ := hc; exact ⟨h3, hf _ h4, h5⟩

/-- what is left of a run, from inside a block -/
def Remains (malloc : List Nat → Nat) (HO : HOutside W) (units : List (List Lam)) (h' : HMach W) : Conf W → Prop
  | ⟨h, .go, p⟩ => Chain malloc HO units h none p h'
  | ⟨h, .act a, p⟩ => Chain malloc HO units h (some a) p h'
  | ⟨h, .stm u k env todo vals, p⟩ => ∃ ws hp h1 c, HEvals u (h.mem h.ctx.bp) env h.heap todo ws hp ∧
      HFinish HO u { h with heap := hp } env k (vals ++ ws) h1 c ∧
      match c with
      | .go => False
      | .act a => Chain malloc HO units h1 (some a) p h'
      | .stm u' k' env' todo' vals' => u' = u ∧ todo' = k'.operands ∧ vals' = [] ∧
        ∃ h2 a, HExec HO u k' env' h1 h2 a ∧ Chain malloc HO units h2 (some a) p h'

theorem evals_one {u : Nat} {r0 : Word} {env : HEnv} {hp hp' : Heap W} {e : CSmp} {ws : List Word} (h : HEvals u r0 env hp [e] ws hp') :
    ∃ w, ws = [w] ∧ HEval u r0 env hp e w hp' := by
  cases h with
  | cons h1 h2 => cases h2; exact ⟨_, rfl, h1⟩

/-- a statement from its beginning -/
theorem remains_exec {h' h : HMach W} {u : Nat} {k : CStm} {env : HEnv} {p : List (List Word)}
    (hr : Remains malloc HO units h' ⟨h, .begin u k env, p⟩) : ∃ h2 a, HExec HO u k env h h2 a ∧ Chain malloc HO units h2 (some a) p h' := by
  obtain ⟨ws, hp, h1, c, he, hf, hc⟩ := hr
  rw [List.nil_append] at hf
  cases hf with
  | ret => obtain ⟨w, e1, e2⟩ := evals_one he; cases e1; exact ⟨_, _, .ret e2, hc⟩
  | tail => cases he with | cons e1 e2 => exact ⟨_, _, .tail e1 e2, hc⟩
  | call hl => cases he with | cons e1 e2 => exact ⟨_, _, .call hl e1 e2, hc⟩
  | bind =>
    obtain ⟨w, e1, e2⟩ := evals_one he; cases e1
    obtain ⟨_, _, _, h2, a, hx, hc⟩ := hc
    exact ⟨_, _, .bind e2 hx, hc⟩
  | prim hpr =>
    obtain ⟨_, _, _, h2, a, hx, hc⟩ := hc
    exact ⟨_, _, .prim he hpr hx, hc⟩
  | seq =>
    obtain ⟨w, e1, e2⟩ := evals_one he; cases e1
    obtain ⟨_, _, _, h2, a, hx, hc⟩ := hc
    exact ⟨_, _, .seq e2 hx, hc⟩
  | iteTrue =>
    obtain ⟨w, e1, e2⟩ := evals_one he; cases e1
    obtain ⟨_, _, _, h2, a, hx, hc⟩ := hc
    exact ⟨_, _, .iteTrue e2 hx, hc⟩
  | iteFalse hw =>
    obtain ⟨w, e1, e2⟩ := evals_one he; cases e1
    obtain ⟨_, _, _, h2, a, hx, hc⟩ := hc
    exact ⟨_, _, .iteFalse e2 hw hx, hc⟩

theorem step_remains {h' : HMach W} {c c1 : Conf W} (hs : HStep malloc HO units c c1) (hr : Remains malloc HO units h' c1) :
    Remains malloc HO units h' c := by
  cases hs with
  | @operand h u k env e es ws w hp p he =>
    obtain ⟨ws', hp', h1, c, h2, h3, h4⟩ := hr
    rw [List.append_assoc] at h3
    exact ⟨w :: ws', hp', h1, c, .cons he h2, h3, h4⟩
  | @finish h u k env ws h1 c p hf =>
    refine ⟨[], h.heap, h1, c, .nil _, by rw [List.append_nil]; exact hf, ?_⟩
    cases hf with
    | ret => exact hr
    | tail => exact hr
    | call => exact hr
    | bind => exact ⟨rfl, rfl, rfl, remains_exec hr⟩
    | prim => exact ⟨rfl, rfl, rfl, remains_exec hr⟩
    | seq => exact ⟨rfl, rfl, rfl, remains_exec hr⟩
    | iteTrue => exact ⟨rfl, rfl, rfl, remains_exec hr⟩
    | iteFalse => exact ⟨rfl, rfl, rfl, remains_exec hr⟩
  | collect h1 h2 => exact Chain.first (fun _ => .collect h1 h2) hr
  | start h1 h2 h3 h4 h5 =>
    obtain ⟨h2', a, hx, hc⟩ := remains_exec hr
    exact Chain.first (fun _ => .code h1 h2 h3 h4 (.start h5 hx)) hc
  | cont h1 h2 h3 h4 h5 h6 =>
    obtain ⟨h2', a, hx, hc⟩ := remains_exec hr
    exact Chain.first (fun _ => .code h1 h2 h3 h4 (.cont h5 h6 hx)) hc
  | prim h1 h2 h3 h4 => exact Chain.first (fun _ => .prim h1 h2 h3 h4) hr
  | native h1 h2 h3 => exact Chain.first (fun _ => .native h1 h2 h3) hr
  | curry h1 h2 h3 => exact Chain.first (fun _ => .curry h1 h2 h3) hr
  | ret h1 => exact Chain.first (fun _ => .ret h1) hr
  | call h1 h2 => exact Chain.first (fun _ => .call h1 h2) hr
  | callNone h1 h2 => exact Chain.first (fun _ => .callNone h1 h2) hr
  | callLess h1 h2 h3 h4 => exact Chain.first (fun _ => .callLess h1 h2 h3 h4) hr
  | callMore h1 h2 h3 =>
    obtain ⟨h4, h5, h6⟩ := hr
    exact Chain.first (fun _ => .callMore h1 h2 h3 h5) h6
  | resume h1 => exact ⟨_, .exit h1, hr⟩

/-- runs, step by step, are runs -/
theorem steps_go {h h' : HMach W} {a : Option HAct} (hs : HSteps malloc HO units ⟨h, .of a, []⟩ ⟨h', .go, []⟩) (he : h'.ctx.fn = .exit) :
    HGo malloc HO units h a h' := by
  have : ∀ {c c' : Conf W}, HSteps malloc HO units c c' → Remains malloc HO units h' c' → Remains malloc HO units h' c := by
    intro c c' h
    induction h with
    | refl => exact id
    | step h1 _ ih => exact fun h => step_remains h1 (ih h)
  have := this hs (show Chain malloc HO units h' none [] h' from .exit he)
  cases a <;> exact this

/-! ### all runs end -/

theorem ops_all {u : Nat} {k : CStm} {henv : HEnv} {env : CEnv MCode} {v0 : MVal} {w0 : CWorld MCode W} {p : List (List Word)} :
    ∀ {todo : List CSmp} {vals : List Word} {h : HMach W} {held : List SlotId} {vs : List MVal}, HeapOk h.heap held →
    EnvOwns h.heap.cell held henv env → Owns h.heap.cell held (h.mem h.ctx.bp) v0 → ShowsWorld h.heap w0 → (∀ e ∈ todo, e.plain) →
    evalCs u (capturedOf v0) env w0 todo = some vs →
    (∀ ws hp', HEvals u (h.mem h.ctx.bp) henv h.heap todo ws hp' → AllEnd malloc HO units ⟨{ h with heap := hp' }, .stm u k henv [] (vals ++ ws), p⟩) →
    AllEnd malloc HO units ⟨h, .stm u k henv todo vals, p⟩
  | [], vals, h, held, vs, _, _, _, _, _, _, hq => by
    have := hq [] h.heap (.nil _)
    rw [List.append_nil] at this
    exact this
  | e :: todo, vals, h, held, vs, hcol, he, h0, hw, hpl, hvs, hq => by
    rw [evalCs] at hvs
    split at hvs
    · rename_i v us b1 b2
      obtain ⟨w, hp1, h1⟩ := eval_exists hcol he h0 hw (hpl e (by simp)) b1
      refine .intro (.inr ⟨_, .operand h1⟩) fun c1 hs => ?_
      cases hs with
      | @operand _ _ _ _ _ _ _ w hp _ h1 =>
        obtain ⟨held1, a1, a2, a3⟩ := eval_sim hcol he h0 hw b1 h1
        refine ops_all (h := { h with heap := hp }) a1.coll (a1.env he) (a1.has h0) a3 (fun e he => hpl e (by simp [he])) b2 fun ws hp' hx => ?_
        rw [List.append_assoc]
        exact hq (w :: ws) hp' (.cons h1 hx)
    · simp at hvs

theorem exec_all {O : Outside W} (hI : Implements HO O) (hT : Answers HO O) {u : Nat} {p : List (List Word)} : ∀ {k : CStm} {henv : HEnv} {h : HMach W}
    {held : List SlotId} {env : CEnv MCode} {v0 : MVal} {w0 w1 : CWorld MCode W} {e : Exit}, k.plain → HeapOk h.heap held →
    EnvOwns h.heap.cell held henv env → Owns h.heap.cell held (h.mem h.ctx.bp) v0 → ShowsWorld h.heap w0 →
    outcome O u (capturedOf v0) k env w0 = some (w1, e) → (∀ h' a, HExec HO u k henv h h' a → AllEnd malloc HO units ⟨h', .act a, p⟩) →
    AllEnd malloc HO units ⟨h, .begin u k henv, p⟩ := by
  have one : ∀ {e : CSmp} {v : MVal} {env v0 w0}, evalC u (capturedOf v0) env w0 e = some v → evalCs (W := W) u (capturedOf v0) env w0 [e] = some [v] := by
    intro e v env v0 w0 h
    simp only [evalCs, h]
  intro k
  induction k with
  | ret e =>
    intro henv h held env v0 w0 w1 x hpl hcol he h0 hw ho hq
    simp only [outcome, Option.map_eq_some_iff] at ho
    obtain ⟨v, hv, _⟩ := ho
    refine ops_all hcol he h0 hw (by simpa [CStm.operands, CStm.plain] using hpl) (one hv) fun ws hp' hx => ?_
    obtain ⟨w, rfl, hx1⟩ := evals_one hx
    refine .intro (.inr ⟨_, .finish .ret⟩) fun c1 hs => ?_
    cases hs with
    | finish hf => cases hf; exact hq _ _ (.ret hx1)
  | tail f args =>
    intro henv h held env v0 w0 w1 x hpl hcol he h0 hw ho hq
    simp only [outcome] at ho
    split at ho
    · rename_i g vs hg hvs
      refine ops_all hcol he h0 hw (vs := g :: vs) (by simpa [CStm.operands, CStm.plain] using hpl) (by simp only [CStm.operands, evalCs, hg, hvs]) fun ws hp' hx => ?_
      cases hx with
      | cons h1 h2 =>
        refine .intro (.inr ⟨_, .finish .tail⟩) fun c1 hs => ?_
        cases hs with
        | finish hf => cases hf; exact hq _ _ (.tail h1 h2)
    · simp at ho
  | call f args label live =>
    intro henv h held env v0 w0 w1 x hpl hcol he h0 hw ho hq
    simp only [outcome] at ho
    split at ho
    · rename_i us hus
      split at ho
      · rename_i g vs hg hvs
        obtain ⟨us', c1, _⟩ := live_sim he hus
        refine ops_all hcol he h0 hw (vs := g :: vs) (by simpa [CStm.operands, CStm.plain] using hpl) (by simp only [CStm.operands, evalCs, hg, hvs]) fun ws hp' hx => ?_
        cases hx with
        | cons h1 h2 =>
          refine .intro (.inr ⟨_, .finish (.call c1)⟩) fun c1 hs => ?_
          cases hs with
          | finish hf => cases hf with | call hl => exact hq _ _ (.call hl h1 h2)
      · simp at ho
    · simp at ho
  | bind y e k ih =>
    intro henv h held env v0 w0 w1 x hpl hcol he h0 hw ho hq
    simp only [outcome] at ho
    split at ho
    · rename_i v hv
      refine ops_all hcol he h0 hw (by simpa [CStm.operands] using hpl.1) (one hv) fun ws hp' hx => ?_
      obtain ⟨w, rfl, hx1⟩ := evals_one hx
      obtain ⟨held1, a1, a2, a3⟩ := eval_sim hcol he h0 hw hv hx1
      refine .intro (.inr ⟨_, .finish .bind⟩) fun c1 hs => ?_
      cases hs with
      | finish hf =>
        cases hf
        exact ih (h := { h with heap := hp' }) hpl.2 a1.coll ((a1.env he).cons y a2) (a1.has h0) a3 ho fun h' a hx' => hq _ _ (.bind hx1 hx')
    · simp at ho
  | prim y q args k ih =>
    intro henv h held env v0 w0 w1 x hpl hcol he h0 hw ho hq
    simp only [outcome] at ho
    split at ho
    · rename_i vs hvs
      split at ho
      · rename_i v w2 hv
        refine ops_all hcol he h0 hw hpl.1 hvs fun ws hp1 h1 => ?_
        obtain ⟨held1, a1, a2, a3⟩ := evals_sim h1 hcol he h0 hw hvs
        obtain ⟨w, hp2, h2⟩ := prim_exists hT a1.coll a2 a3 hv
        refine .intro (.inr ⟨_, .finish (.prim h2)⟩) fun c1 hs => ?_
        cases hs with
        | finish hf =>
          cases hf with
          | prim h2 =>
            obtain ⟨held2, c1, c2, c3⟩ := prim_sim hI a1.coll a2 a3 hv h2
            have ac := a1.trans c1
            exact ih (h := { h with heap := _ }) hpl.2 ac.coll ((ac.env he).cons y c2) (ac.has h0) c3 ho fun h' a hx' => hq _ _ (.prim h1 h2 hx')
      · simp at ho
    · simp at ho
  | seq e k ih =>
    intro henv h held env v0 w0 w1 x hpl hcol he h0 hw ho hq
    simp only [outcome] at ho
    split at ho
    · rename_i v hv
      refine ops_all hcol he h0 hw (by simpa [CStm.operands] using hpl.1) (one hv) fun ws hp' hx => ?_
      obtain ⟨w, rfl, hx1⟩ := evals_one hx
      obtain ⟨held1, a1, a2, a3⟩ := eval_sim hcol he h0 hw hv hx1
      refine .intro (.inr ⟨_, .finish .seq⟩) fun c1 hs => ?_
      cases hs with
      | finish hf =>
        cases hf
        exact ih (h := { h with heap := hp' }) hpl.2 a1.coll (a1.env he) (a1.has h0) a3 ho fun h' a hx' => hq _ _ (.seq hx1 hx')
    · simp at ho
  | ite e a b ih1 ih2 =>
    intro henv h held env v0 w0 w1 x hpl hcol he h0 hw ho hq
    simp only [outcome] at ho
    split at ho
    · rename_i v hv
      refine ops_all hcol he h0 hw (by simpa [CStm.operands] using hpl.1) (one hv) fun ws hp' hx => ?_
      obtain ⟨w, rfl, hx1⟩ := evals_one hx
      obtain ⟨held1, a1, a2, a3⟩ := eval_sim hcol he h0 hw hv hx1
      by_cases hb : w = .bool true
      · subst hb
        rw [shows_true a2.1, if_pos rfl] at ho
        refine .intro (.inr ⟨_, .finish .iteTrue⟩) fun c1 hs => ?_
        cases hs with
        | finish hf =>
          cases hf with
          | iteTrue => exact ih1 (h := { h with heap := hp' }) hpl.2.1 a1.coll (a1.env he) (a1.has h0) a3 ho fun h' a hx' => hq _ _ (.iteTrue hx1 hx')
          | iteFalse hne => exact absurd rfl hne
      · rw [shows_false a2.1 hb, if_neg (by simp)] at ho
        refine .intro (.inr ⟨_, .finish (.iteFalse hb)⟩) fun c1 hs => ?_
        cases hs with
        | finish hf =>
          cases hf with
          | iteTrue => exact absurd rfl hb
          | iteFalse hne => exact ih2 (h := { h with heap := hp' }) hpl.2.2 a1.coll (a1.env he) (a1.has h0) a3 ho fun h' a hx' => hq _ _ (.iteFalse hx1 hne hx')
    · simp at ho

theorem gcMarkRoot_phase {s s' : St} {roots : List (Option SlotId)} (h : gcMarkRoot s roots = some s') : s'.phase = .incr := by
  simp only [gcMarkRoot, Option.bind_eq_bind, Option.bind_eq_some_iff] at h
  obtain ⟨_, _, _, _, h3⟩ := h
  cases h3; rfl

section
variable {P : Before} {O : Outside W}

theorem block_all (hI : Implements HO O) (hT : Answers HO O) {strict : Prop} {s : Mach W} {t : SMach W} {h : HMach W} {held : List SlotId}
    (ha : Active strict units P.B s t) (hh : HActive units P h t held) {u l : Nat} (hfn : h.ctx.fn = .code u l) (hok : h.frameOk = true)
    {code : List Lam} {lam : Lam} (hu : units[u]? = some code) (hl : code[l]? = some lam) (hpl : ∀ b ∈ lam.pieces, b.plain) {tv : Mach W} {m : MAct}
    (ht : lam.block O u t.view = some (tv, m)) (hq : ∀ h1 a, HBlock HO u lam h h1 a → AllEnd malloc HO units ⟨h1, .act a, []⟩) :
    (∃ c1, HStep malloc HO units ⟨h, .go, []⟩ c1) ∧
    ∀ body henv, lam.Starts h body henv → AllEnd malloc HO units ⟨h, .begin u body henv, []⟩ := by
  have s1 := hh.1.same.1
  obtain ⟨body, env, henv, hbody, he, hpair, ht1, hx, hst⟩ := block_vars O HO ha hh (by rw [s1]; exact hfn) hu hl
  obtain ⟨hi, hr, hres⟩ := hh
  obtain ⟨hp, hin, ⟨size, k, a1, a2, a3, a4, a5, a6⟩, hsres⟩ := ha
  have h0 := hr size k (by rw [← s1]; exact a3) (by rw [← s1]; exact a5) 0 a5.le.1
  rw [Nat.add_zero] at h0
  rw [ht1, execC_outcome, Option.map_eq_some_iff] at ht
  obtain ⟨⟨w', e⟩, ho, _⟩ := ht
  have hcap : capturedOf (t.view.stack t.view.ctx.bp) = capturedOf (t.mem h.ctx.bp) := by simp only [SMach.view, s1]
  rw [hcap] at ho
  constructor
  · rcases hst with ⟨b1, _, _⟩ | ⟨i, c, b1, b2, _, _⟩
    · exact ⟨_, .start hfn hok hu hl b1⟩
    · exact ⟨_, .cont hfn hok hu hl b1 b2⟩
  · intro body' henv' hst'
    obtain ⟨rfl, rfl⟩ : body' = body ∧ henv' = henv := by
      rcases hst with ⟨b1, b2, b3⟩ | ⟨i, c, b1, b2, b3, b4⟩ <;> rcases hst' with ⟨c1, c2, c3⟩ | ⟨j, d, c1, c2, c3, c4⟩
      · exact ⟨c2.trans b2.symm, c3.trans b3.symm⟩
      · omega
      · omega
      · obtain rfl : i = j := by omega
        rw [b2] at c2; cases c2
        exact ⟨c3.trans b3.symm, c4.trans b4.symm⟩
    exact exec_all hI hT (hpl _ hbody) hi.ok hpair h0 hi.world ho fun h1 a h2 => hq h1 a ((hx h1 a).mpr h2)

theorem heap_all (hB : P.B.Ok) (hU : UnitsOk units) (hO : KeepsSane O) (hm : Fresh malloc) (hI : Implements HO O) (hT : Answers HO O)
    (hpl : ∀ code ∈ units, ∀ l ∈ code, ∀ b ∈ l.pieces, b.plain) : ∀ (n : Nat) (s s' : Mach W) (t : SMach W) (h : HMach W) (held : List SlotId)
    (act : Option HAct) (a : Option MAct), HRel units P s t h held act a → goX false O units n s a = some s' →
    AllEnd malloc HO units ⟨h, .of act, []⟩ := by
  intro n
  induction n with
  | zero => intro s s' t h held act a _ hx; simp [goX] at hx
  | succ n ih =>
    intro s s' t h held act a hs hx
    cases a with
    | none =>
      cases act with
      | some _ => exact hs.elim
      | none =>
        have main : ∀ (h : HMach W) held, HState units P s t h held →
            ((⟨h, .go, []⟩ : Conf W).ended ∨ ∃ c1, HStep malloc HO units ⟨h, .go, []⟩ c1) ∧ ∀ c1, HStep malloc HO units ⟨h, .go, []⟩ c1 →
            (∃ gc, h.heap.gc.phase = .none ∧ gcMarkRoot h.heap.gc h.roots = some gc ∧ c1 = ⟨{ h with heap := { h.heap with gc := gc } }, .go, []⟩) ∨
            AllEnd malloc HO units c1 := by
          clear hs h held
          intro h held hs
          by_cases hfn : h.ctx.fn = .exit
          · refine ⟨.inl ⟨rfl, hfn, rfl⟩, fun c1 hs => ?_⟩
            cases hs with
            | collect h1 h2 => exact .inl ⟨_, h1, h2, rfl⟩
            | start h1 => rw [hfn] at h1; cases h1
            | cont h1 => rw [hfn] at h1; cases h1
            | prim h1 => rw [hfn] at h1; cases h1
            | native h1 => rw [hfn] at h1; cases h1
            | curry h1 => rw [hfn] at h1; cases h1
          obtain ⟨hf, hact, hh⟩ := state_active hB hs hfn
          have hok := frame_exists hh.1.same (active_frameOk hB hact)
          cases hfn' : h.ctx.fn with
          | exit => exact absurd hfn' hfn
          | code u l =>
            rw [hfn'] at hf
            obtain ⟨code, lam, q1, q2, q3, q4⟩ := block_sim' hB hU hO hact hf
            simp only [goX, q1, q2, q3] at hx
            rcases q4 with ⟨q5, _⟩ | ⟨s1, tv, m, q5, q6, q7⟩
            · rw [q5] at hx; simp at hx
            · rw [q5] at hx
              obtain ⟨hp, hall⟩ := block_all (malloc := malloc) hI hT hact hh hfn' hok q2 q3
                (hpl code (List.mem_of_getElem? q2) lam (List.mem_of_getElem? q3)) q6 fun h1 a hb => by
                  obtain ⟨held', q8⟩ := block_heap hB hU hO hI hact hh hf q2 q3 hb q6
                  exact ih s1 s' _ h1 held' (some a) (some m) ⟨q7, q8⟩ hx
              refine ⟨.inr hp, fun c1 hs => ?_⟩
              cases hs with
              | collect h1 h2 => exact .inl ⟨_, h1, h2, rfl⟩
              | start h1 h2 h3 h4 h5 =>
                rw [hfn'] at h1; cases h1
                rw [q2] at h3; cases h3
                rw [q3] at h4; cases h4
                exact .inr (hall _ _ (.inl ⟨h5, rfl, rfl⟩))
              | cont h1 h2 h3 h4 h5 h6 =>
                rw [hfn'] at h1; cases h1
                rw [q2] at h3; cases h3
                rw [q3] at h4; cases h4
                exact .inr (hall _ _ (.inr ⟨_, _, h5, h6, rfl, rfl⟩))
              | prim h1 => rw [hfn'] at h1; cases h1
              | native h1 => rw [hfn'] at h1; cases h1
              | curry h1 => rw [hfn'] at h1; cases h1
          | prim p =>
            rw [hfn'] at hf
            obtain ⟨w1, w2⟩ := active_world hact
            obtain ⟨q1, k, q2, q3, q4⟩ := active_prim hact hf
            simp only [goX, q1, q2] at hx
            split at hx
            · rename_i v w' hv
              obtain ⟨q5, q6⟩ := cprim_sane hO (by rw [q3]; exact q4) w2 hv
              rw [q3] at hv
              obtain ⟨hi, hr, _⟩ := hh
              have hargs : OwnsAll h.heap.cell held (readW h.mem (h.ctx.bp + 1) k) (readAt t.mem (t.ctx.bp + 1) k) := by
                obtain ⟨_, _, ⟨size, k', a1, a2, a3, a4, a5, a6⟩, _⟩ := hact
                have hregs := hr size k' (by rw [← hi.same.1]; exact a3) (by rw [← hi.same.1]; exact a5)
                rw [hf] at a5
                cases a5 with
                | prim b1 b2 =>
                  rw [q2] at b1; cases b1
                  rw [hi.same.1]
                  refine regs_owns fun i hi => ?_
                  rw [show h.ctx.bp + 1 + i = h.ctx.bp + (i + 1) by omega]
                  exact hregs (i + 1) (by omega)
              obtain ⟨w, hp, hpr⟩ := prim_exists hT hi.ok hargs hi.world (by rw [w1]; exact hv)
              refine ⟨.inr ⟨_, .prim hfn' hok q2 hpr⟩, fun c1 hs => ?_⟩
              cases hs with
              | collect h1 h2 => exact .inl ⟨_, h1, h2, rfl⟩
              | start h1 => rw [hfn'] at h1; cases h1
              | cont h1 => rw [hfn'] at h1; cases h1
              | native h1 => rw [hfn'] at h1; cases h1
              | curry h1 => rw [hfn'] at h1; cases h1
              | prim h1 h2 h3 hpr =>
                rw [hfn'] at h1; cases h1
                rw [q2] at h3; cases h3
                obtain ⟨held', r1, r2, r3⟩ := prim_sim hI hi.ok hargs hi.world (by rw [w1]; exact hv) hpr
                exact .inr (ih _ s' _ { h with heap := _ } held' (some (.ret _)) (some (.ret v))
                  ⟨⟨q5, _, _, pend_world hact.1 q6⟩, hi.onward r1 r3, r2⟩ hx)
            · simp at hx
          | native id k =>
            rw [hfn'] at hf
            obtain ⟨w1, w2⟩ := active_world hact
            obtain ⟨q1, q3, q4⟩ := active_native hact hf
            simp only [goX, q1] at hx
            split at hx
            · rename_i v w' hv
              obtain ⟨q5, q6⟩ := hO.2 units id _ _ _ _ (by rw [q3]; exact q4) w2 hv
              rw [q3] at hv
              obtain ⟨hi, hr, _⟩ := hh
              have hargs : OwnsAll h.heap.cell held (readW h.mem (h.ctx.bp + 1) k) (readAt t.mem (t.ctx.bp + 1) k) := by
                obtain ⟨_, _, ⟨size, k', a1, a2, a3, a4, a5, a6⟩, _⟩ := hact
                have hregs := hr size k' (by rw [← hi.same.1]; exact a3) (by rw [← hi.same.1]; exact a5)
                rw [hf] at a5
                cases a5 with
                | native b1 =>
                  rw [hi.same.1]
                  refine regs_owns fun i hi => ?_
                  rw [show h.ctx.bp + 1 + i = h.ctx.bp + (i + 1) by omega]
                  exact hregs (i + 1) (by omega)
              have hv' : O.native id (readAt t.mem (t.ctx.bp + 1) k) t.world = some (v, w') := by rw [w1]; exact hv
              obtain ⟨w, hp, hpr⟩ := hT.native id _ _ held _ _ _ _ hi.ok hargs.shows hargs.holds hi.world hv'
              refine ⟨.inr ⟨_, .native hfn' hok hpr⟩, fun c1 hs => ?_⟩
              cases hs with
              | collect h1 h2 => exact .inl ⟨_, h1, h2, rfl⟩
              | start h1 => rw [hfn'] at h1; cases h1
              | cont h1 => rw [hfn'] at h1; cases h1
              | prim h1 => rw [hfn'] at h1; cases h1
              | curry h1 => rw [hfn'] at h1; cases h1
              | native h1 h2 hpr =>
                rw [hfn'] at h1; cases h1
                obtain ⟨⟨ws', b1, b2⟩, b3⟩ := hI.native id _ _ _ _ hpr
                obtain ⟨held', r1, r2⟩ := acts_later b1 hi.ok hargs.holds
                obtain ⟨r3, r4⟩ := b3 _ _ v w' hargs.shows hi.world hv'
                exact .inr (ih _ s' _ { h with heap := _ } held' (some (.ret _)) (some (.ret v))
                  ⟨⟨q5, _, _, pend_world hact.1 q6⟩, hi.onward r1 r4, r3, r2 _ b2⟩ hx)
            · simp at hx
          | curry =>
            rw [hfn'] at hf
            obtain ⟨q1, s1, tv, q2, q3, q4⟩ := curry_sim hB hact hf
            simp only [goX, q1, q2] at hx
            obtain ⟨h1, hc⟩ := curry_exists hact hh hf
            refine ⟨.inr ⟨_, .curry hfn' hok hc⟩, fun c1 hs => ?_⟩
            cases hs with
            | collect h1 h2 => exact .inl ⟨_, h1, h2, rfl⟩
            | start h1 => rw [hfn'] at h1; cases h1
            | cont h1 => rw [hfn'] at h1; cases h1
            | prim h1 => rw [hfn'] at h1; cases h1
            | native h1 => rw [hfn'] at h1; cases h1
            | curry h1 h2 hc =>
              obtain ⟨held', q5⟩ := curry_heap hB hact hh hf hc q3
              exact .inr (ih s1 s' _ _ held' none none (.inr ⟨q4, q5⟩) hx)
        obtain ⟨p1, p2⟩ := main h held hs
        refine .intro p1 fun c1 hs1 => ?_
        rcases p2 c1 hs1 with ⟨gc, hph, hmr, rfl⟩ | hr
        · refine (?_ : ∃ held', HState units P s t { h with heap := { h.heap with gc := gc } } held').elim fun held' hs' => ?_
          · rcases hs with ⟨h1, h2⟩ | ⟨h1, h2⟩
            · obtain ⟨held', a1, a2⟩ := collect_sim h2.1 hph hmr (L := []) h1.2.2.2.1
              exact ⟨held', .inl ⟨h1, a1, h2.2.1, a2 _ h2.2.2 roots_res⟩⟩
            · obtain ⟨L, _, _, hL, _⟩ := h1.1.2
              obtain ⟨held', a1, a2⟩ := collect_sim h2.1 hph hmr hL
              refine ⟨held', .inr ⟨h1, a1, fun size k hsz hn i hi => ?_, fun hlab => ⟨(h2.2.2 hlab).1, a2 _ (h2.2.2 hlab).2 roots_res⟩⟩⟩
              have := h2.2.1 size k hsz hn i hi
              have hle := hn.le
              have hsz' : h.ctx.sp = h.ctx.bp + size := hsz
              exact ⟨this.1, a2 _ this.2 (roots_ctx (h := h) (p := h.ctx.bp + i) (by omega) (by omega))⟩
          · obtain ⟨p3, p4⟩ := main _ held' hs'
            refine .intro p3 fun c2 hs2 => ?_
            rcases p4 c2 hs2 with ⟨gc', hph', _⟩ | hr
            · have := gcMarkRoot_phase hmr
              rw [this] at hph'
              cases hph'
            · exact hr
        · exact hr
    | some m =>
      cases act with
      | none => exact hs.elim
      | some act =>
        obtain ⟨hp, hh⟩ := hs
        cases m with
        | ret v =>
          cases act with
          | call => exact hh.elim
          | ret w =>
            obtain ⟨hi, hw⟩ := hh
            obtain ⟨hv, x, y, hp⟩ := hp
            obtain ⟨s1, q1, q2, q3⟩ := seg_ret hB hp hv
            obtain ⟨t1, ht1⟩ := q2 trivial
            obtain ⟨h1, hr⟩ := ret_exists hi.same w ht1
            obtain ⟨r1, r2, f, r3, r4, r5, r6, r7⟩ := ret_sim hi hw hr ht1
            simp only [goX, q1] at hx
            have hg := ih s1 s' t1 h1 held none none (by
              rcases q3 t1 ht1 with q4 | q4
              · exact .inl ⟨q4, r1, r2⟩
              · refine .inr ⟨q4, r1, ?_, fun _ => r2⟩
                obtain ⟨_, L, M, data', hL, _, _, _, _, _, hst⟩ := hp
                obtain ⟨f', fs, _, _, rfl, _⟩ := under_ne (b := 0) (r := []) (x := 0) hst
                rw [r3, List.cons_append] at hL
                have hne := active_fn q4
                injection hL with e1 e2
                have := hi.frames (f' :: fs) (by rw [r3, e1, e2]; rfl) f' (by simp) (by rw [← e1, ← r4]; exact hne)
                rw [← r1.same.1, r4, e1, r5, r6, r7]
                exact this) hx
            refine .intro (.inr ⟨_, .ret hr⟩) fun c1 hs => ?_
            cases hs with
            | ret hr' => rw [hr] at hr'; cases hr'; exact hg
        | call g vs =>
          cases act with
          | ret => exact hh.elim
          | call f args =>
            obtain ⟨hi, hw, hws⟩ := hh
            obtain ⟨hg, hvs, hp⟩ := hp
            simp only [goX] at hx
            cases har : g.arity with
            | none => simp [har] at hx
            | some m =>
              obtain ⟨data, hd⟩ := shows_fn hw.1 har
              have hl := hws.length
              simp only [har] at hx
              split at hx
              · rename_i hm1
                subst hm1
                obtain ⟨t1, ht1, hact⟩ := seg_enter hB hm hp hg har hvs
                obtain ⟨h1, he⟩ := enter_exists hi.same f hl ht1
                have hg' := ih _ s' t1 h1 held none none (.inr ⟨hact, enter_heap hB hi hp hm hg har hw hws he ht1⟩) hx
                rw [← hl] at hd
                refine .intro (.inr ⟨_, .call hd he⟩) fun c1 hs => ?_
                cases hs with
                | call hd' he' =>
                  rw [hd] at hd'; cases hd'
                  rw [he] at he'; cases he'
                  exact hg'
                | callNone hd' h0 => rw [hd] at hd'; cases hd'; exact absurd rfl h0
                | callLess hd' _ h0 => rw [hd] at hd'; cases hd'; omega
                | callMore hd' h0 => rw [hd] at hd'; cases hd'; omega
              · rename_i hm1
                split at hx
                · rename_i hm2
                  obtain rfl : args = [] := List.length_eq_zero_iff.mp (by omega)
                  have hg' := ih _ s' t h held (some (.ret f)) (some (.ret g)) ⟨⟨hg, _, _, hp⟩, hi, hw⟩ hx
                  refine .intro (.inr ⟨_, .callNone hd (by omega)⟩) fun c1 hs => ?_
                  cases hs with
                  | call hd' he' => rw [hd] at hd'; cases hd'; exact absurd hl.symm hm1
                  | callNone => exact hg'
                  | callLess _ h0 => exact absurd rfl h0
                  | callMore _ h0 => simp at h0
                · rename_i hm2
                  split at hx
                  · rename_i hm3
                    obtain ⟨hp', x, hn⟩ := new_exists hi.ok.run (.fn .curry (nframeOf g) (m - args.length) (f :: args))
                    refine .intro (.inr ⟨_, .callLess hd (by omega) (by omega) hn⟩) fun c1 hs => ?_
                    cases hs with
                    | call hd' he' => rw [hd] at hd'; cases hd'; omega
                    | callNone => simp at hl; omega
                    | callMore hd' h0 => rw [hd] at hd'; cases hd'; omega
                    | callLess hd' _ _ hn =>
                      rw [hd] at hd'; cases hd'
                      obtain ⟨held', a1, a2, a3, a4, a5⟩ := new_later hi.ok hn (by
                        intro u hu
                        simp only [Cell.words, List.mem_cons] at hu
                        rcases hu with rfl | hu
                        · exact hw.2
                        · exact hws.holds u hu)
                      have hws' := a1.hasAll hws
                      exact ih _ s' t { h with heap := _ } held' (some (.ret (.ptr _))) (some (.ret (.pap g vs)))
                        ⟨⟨.pap hg hvs har (by omega) (by omega), _, _, hp⟩, hi.onward a1 (a1.world hi.ok a4 a5 hi.world),
                          .pap har (by rw [a2, hl]) (a1.has hw).1 hl hws'.shows.2, fun q hq => by cases hq; exact a3⟩ hx
                  · simp at hx

end

/-- loading a file ends, whatever happens -/
theorem load_all {E : Ext W} {O : Outside W} (hA : Agree E O) (hO : Parametric O) (hK : KeepsSane O) (hI : Implements HO O)
    (hT : Answers HO O) (hm : Fresh malloc) (hU : UnitsOk units) {w w1 : World W} {w' : CWorld MCode W}
    {e : Core} {v : Val} {o : Operand} (hx : XEval false E [] w e v o w1) {k k' : Nat} {file : List Lam} (hk : Below k e.syms)
    (hb : NoPrims e.binders) (hfull : e.full) (ht : e.tidy []) (hc : compile e k = some (file, k')) (hsmall : SmallFrames file)
    (hpl : ∀ code ∈ units ++ [file], ∀ l ∈ code, ∀ b ∈ l.pieces, b.plain)
    (hw : MWorld units w w') (hsw : SaneWorld units w') {n : Nat} (hroom : FitsFrame n file) {h : HMach W} {held mine : List SlotId}
    (hin : InHeap n h held) (hsh : ShowsWorld h.heap w') (hmine : InCallers h mine) (hsub : ∀ x ∈ mine, x ∈ held) :
    AllEnd malloc HO (units ++ [file]) ⟨h.loadSo units.length (file.length - 1), .go, []⟩ := by
  obtain ⟨v0, hU', hB, hseg, hact, hactive⟩ := load_state hU hc hsmall hsw hroom hin hsh hmine hsub
  obtain ⟨s', ⟨fuel, hfuel⟩, _⟩ := load_sim hA hO hx hk hb hfull ht hc (flatOf (segOf h v0 w')) hw ⟨hseg.captured, hseg.size⟩ hroom
  exact heap_all hB hU' hK hm hI hT hpl fuel _ s' _ _ held none none (.inr ⟨hact, hactive⟩) hfuel

end Cora.Compile
