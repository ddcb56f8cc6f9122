import Verif.Model.HeapMachine
/-
The runs of Model/HeapMachine.lean, step by step, so that runs that do not end, or that get stuck, can be talked about. A step evaluates
one operand, ends one statement, starts or ends a function, or starts a cycle of the collector. (What the collector does during an
allocation is part of the step that allocates.)
-/
open Spec.Lang
namespace Cora.Compile
open GC
variable {W : Type}

/-- where a run stands: in the loop of `coraRun`, in `coraReturn` or `coraCall`, or in a statement of a block, some of whose operands are
evaluated -/
inductive Ctl where
  | go
  | act (a : HAct)
  | stm (unit : Nat) (k : CStm) (env : HEnv) (todo : List CSmp) (vals : List Word)

/-- the machine, where it stands, and the arguments that pending calls of `coraDispatch` (src/runtime.c:149-171) have in their C arrays -/
structure Conf (W : Type) where
  mach : HMach W
  ctl : Ctl
  pend : List (List Word)

/-- the operands of a statement, in the order of evaluation -/
def CStm.operands : CStm → List CSmp
  | .ret e => [e]
  | .tail f args => f :: args
  | .call f args _ _ => f :: args
  | .bind _ e _ => [e]
  | .prim _ _ args _ => args
  | .seq e _ => [e]
  | .ite e _ _ => [e]

/-- before a statement -/
def Ctl.begin (unit : Nat) (k : CStm) (env : HEnv) : Ctl := .stm unit k env k.operands []

section
variable [Layout]

/-- the end of a statement whose operands are evaluated: lib/toc.cora:327-414, as `HExec` -/
inductive HFinish (HO : HOutside W) (unit : Nat) (h : HMach W) (env : HEnv) : CStm → List Word → HMach W → Ctl → Prop where
  | ret {e w} : HFinish HO unit h env (.ret e) [w] h (.act (.ret w))
  | tail {f args g ws} : HFinish HO unit h env (.tail f args) (g :: ws) { h with ctx := { h.ctx with sp := h.ctx.bp } } (.act (.call g ws))
  | call {f args label live us g ws} : hgetRefs env [] (live.map Ref.loc) = some us →
      HFinish HO unit h env (.call f args label live) (g :: ws)
        { h with mem := storeW h.mem (h.ctx.bp + 1) us, frames := { h.ctx with label := label } :: h.frames } (.act (.call g ws))
  | bind {x e k w} : HFinish HO unit h env (.bind x e k) [w] h (.begin unit k ((x, w) :: env))
  | prim {x p args k ws w hp} : HPrim HO p ws h.heap w hp →
      HFinish HO unit h env (.prim x p args k) ws { h with heap := hp } (.begin unit k ((x, w) :: env))
  | seq {e k w} : HFinish HO unit h env (.seq e k) [w] h (.begin unit k env)
  | iteTrue {e k1 k2} : HFinish HO unit h env (.ite e k1 k2) [.bool true] h (.begin unit k1 env)
  | iteFalse {e k1 k2 w} : w ≠ .bool true → HFinish HO unit h env (.ite e k1 k2) [w] h (.begin unit k2 env)

/-- one step; the cases are those of `HGo`. src/runtime.c:69-171 -/
inductive HStep (malloc : List Nat → Nat) (HO : HOutside W) (units : List (List Lam)) : Conf W → Conf W → Prop where
  | operand {h u k env e es ws w hp p} : HEval u (h.mem h.ctx.bp) env h.heap e w hp →
      HStep malloc HO units ⟨h, .stm u k env (e :: es) ws, p⟩ ⟨{ h with heap := hp }, .stm u k env es (ws ++ [w]), p⟩
  | finish {h u k env ws h' c p} : HFinish HO u h env k ws h' c → HStep malloc HO units ⟨h, .stm u k env [] ws, p⟩ ⟨h', c, p⟩
  | collect {h gc p} : h.heap.gc.phase = .none → gcMarkRoot h.heap.gc h.roots = some gc →
      HStep malloc HO units ⟨h, .go, p⟩ ⟨{ h with heap := { h.heap with gc := gc } }, .go, p⟩
  | start {h u l code lam p} : h.ctx.fn = .code u l → h.frameOk = true → units[u]? = some code → code[l]? = some lam → h.ctx.label = 0 →
      HStep malloc HO units ⟨h, .go, p⟩ ⟨h, .begin u lam.body (lam.params.zip (readW h.mem (h.ctx.bp + 1) lam.params.length)).reverse, p⟩
  | cont {h u l code lam i c p} : h.ctx.fn = .code u l → h.frameOk = true → units[u]? = some code → code[l]? = some lam → h.ctx.label = i + 1 →
      lam.conts[i]? = some c →
      HStep malloc HO units ⟨h, .go, p⟩ ⟨h, .begin u c.body ((c.val, h.res) :: c.live.zip (readW h.mem (h.ctx.bp + 1) c.live.length)), p⟩
  | prim {h q k w hp p} : h.ctx.fn = .prim q → h.frameOk = true → primArity q = some k →
      HPrim HO q (readW h.mem (h.ctx.bp + 1) k) h.heap w hp → HStep malloc HO units ⟨h, .go, p⟩ ⟨{ h with heap := hp }, .act (.ret w), p⟩
  | native {h id k w hp p} : h.ctx.fn = .native id k → h.frameOk = true → HO.native id (readW h.mem (h.ctx.bp + 1) k) h.heap w hp →
      HStep malloc HO units ⟨h, .go, p⟩ ⟨{ h with heap := hp }, .act (.ret w), p⟩
  | curry {h h1 p} : h.ctx.fn = .curry → h.frameOk = true → hcurryBlock h = some h1 → HStep malloc HO units ⟨h, .go, p⟩ ⟨h1, .go, p⟩
  | ret {h w h1 p} : h.ret w = some h1 → HStep malloc HO units ⟨h, .act (.ret w), p⟩ ⟨h1, .go, p⟩
  | call {h f args code nframe data h1 p} : cellOf h.heap.cell f = some (.fn code nframe args.length data) →
      h.enter malloc code nframe f args = some h1 → HStep malloc HO units ⟨h, .act (.call f args), p⟩ ⟨h1, .go, p⟩
  | callNone {h f code nframe required data p} : cellOf h.heap.cell f = some (.fn code nframe required data) → required ≠ 0 →
      HStep malloc HO units ⟨h, .act (.call f []), p⟩ ⟨h, .act (.ret f), p⟩
  | callLess {h f args code nframe required data hp x p} : cellOf h.heap.cell f = some (.fn code nframe required data) →
      args.length ≠ 0 → args.length < required → NewObj h.heap (.fn .curry nframe (required - args.length) (f :: args)) hp x →
      HStep malloc HO units ⟨h, .act (.call f args), p⟩ ⟨{ h with heap := hp }, .act (.ret (.ptr x)), p⟩
  | callMore {h f args code nframe required data h1 p} : cellOf h.heap.cell f = some (.fn code nframe required data) →
      required < args.length → h.enter malloc code nframe f (args.take required) = some h1 →
      HStep malloc HO units ⟨h, .act (.call f args), p⟩ ⟨h1.pushExit, .go, args.drop required :: p⟩
  /-- the nested `coraRun` ends -/
  | resume {h args p} : h.ctx.fn = .exit → HStep malloc HO units ⟨h, .go, args :: p⟩ ⟨h, .act (.call h.res args), p⟩

/-- any number of steps -/
inductive HSteps (malloc : List Nat → Nat) (HO : HOutside W) (units : List (List Lam)) : Conf W → Conf W → Prop where
  | refl (c) : HSteps malloc HO units c c
  | step {c c1 c2} : HStep malloc HO units c c1 → HSteps malloc HO units c1 c2 → HSteps malloc HO units c c2

/-- the outermost `coraRun` returns -/
def Conf.ended (c : Conf W) : Prop := c.ctl = .go ∧ c.mach.ctx.fn = .exit ∧ c.pend = []

end

end Cora.Compile
