import Verif.Spec.Segments
import Verif.Model.HeapSteps
/-
What it means that compiled files behave like the forms they were made from, with objects on a heap that is collected.
-/
open Spec.Lang Cora.Compile Cora.GC
namespace Spec.Compiled
variable {W : Type} [Layout]

/-- the word, with the objects it leads to, is the value -/
inductive Shows (cell : SlotId → Cell) : Word → MVal → Prop where
  | int (n) : Shows cell (.int n) (.int n)
  | bool (b) : Shows cell (.bool b) (.bool b)
  | nil : Shows cell .nil .nil
  | sym (x) : Shows cell (.sym x) (.sym x)
  | str {x s} : cell x = .str s → Shows cell (.ptr x) (.str s)
  | cons {x a d u v} : cell x = .cons a d → Shows cell a u → Shows cell d v → Shows cell (.ptr x) (.cons u v)
  | clo {x n c caps ws} : cell x = .fn (.code c.unit c.label) c.nframe n ws → ws.length = caps.length →
      (∀ (i : Nat) w v, ws[i]? = some w → caps[i]? = some v → Shows cell w v) → Shows cell (.ptr x) (.clo n c caps)
  | prim {x p n} : primArity p = some n → cell x = .fn (.prim p) (n + 1) n [] → Shows cell (.ptr x) (.prim p)
  | native {x id n} : cell x = .fn (.native id n) (n + 1) n [] → Shows cell (.ptr x) (.native id n)
  | pap {x f n args w ws} : f.arity = some n → cell x = .fn .curry (nframeOf f) (n - args.length) (w :: ws) → Shows cell w f →
      ws.length = args.length → (∀ (i : Nat) w v, ws[i]? = some w → args[i]? = some v → Shows cell w v) → Shows cell (.ptr x) (.pap f args)

/-- several -/
def ShowsAll (cell : SlotId → Cell) (ws : List Word) (vs : List MVal) : Prop :=
  ws.length = vs.length ∧ ∀ (i : Nat) w v, ws[i]? = some w → vs[i]? = some v → Shows cell w v

/-- the global variables and everything else -/
def ShowsWorld (hp : Heap W) (w : CWorld MCode W) : Prop :=
  hp.rest = w.rest ∧ ∀ x, (hfind x hp.globals = none ∧ w.globals x = none) ∨
    ∃ u v, hfind x hp.globals = some u ∧ w.globals x = some v ∧ Shows hp.cell u v

/-- the objects that a word points to are among those -/
def Holds (held : List SlotId) (w : Word) : Prop := ∀ p, w.kid = some p → p ∈ held

/-- The collector is in a state that a program can bring it to, in which the program holds the objects `held`, among them those in
global variables; and in every object that can be reached, the collector sees the pointers that are in it. -/
structure HeapOk (hp : Heap W) (held : List SlotId) : Prop where
  run : Run ⟨hp.gc, held⟩
  kids : ∀ x, Reach ⟨hp.gc, held⟩ x → (hp.gc.obj x).kids = (hp.cell x).kids
  globals : ∀ q ∈ hp.globals, Holds held q.2

/-- What C code that is no compiled code may do. It starts with the words that it is given and may read the words in objects
and global variables, use words that are no pointers, allocate objects made of words it has, and set global variables. The last list
is what it has in the end. -/
inductive Acts : List Word → Heap W → List Word → Heap W → Prop where
  | done (ws hp) : Acts ws hp ws hp
  | word {ws w hp ws' hp'} : w.kid = none → Acts (w :: ws) hp ws' hp' → Acts ws hp ws' hp'
  | load {ws x w hp ws' hp'} : .ptr x ∈ ws → w ∈ (hp.cell x).words → Acts (w :: ws) hp ws' hp' → Acts ws hp ws' hp'
  | get {ws x w hp ws' hp'} : hfind x hp.globals = some w → Acts (w :: ws) hp ws' hp' → Acts ws hp ws' hp'
  | set {ws x w hp hp1 ws' hp'} : w ∈ ws → hp.setGlobal x w = some hp1 → Acts ws hp1 ws' hp' → Acts ws hp ws' hp'
  | new {ws c hp hp1 x ws' hp'} : (∀ w ∈ c.words, w ∈ ws) → NewObj hp c hp1 x → Acts (.ptr x :: ws) hp1 ws' hp' → Acts ws hp ws' hp'
  | rest {ws hp r ws' hp'} : Acts ws { hp with rest := r } ws' hp' → Acts ws hp ws' hp'

/-- the builtin functions do on words what they do on values -/
structure Implements (HO : HOutside W) (O : Outside W) : Prop where
  prim : ∀ p ws (hp : Heap W) w hp', HO.prim p ws hp w hp' → (∃ ws', Acts ws hp ws' hp' ∧ w ∈ ws') ∧
    ∀ vs w0 v w1, ShowsAll hp.cell ws vs → ShowsWorld hp w0 → coutside O p vs w0 = some (v, w1) → Shows hp'.cell w v ∧ ShowsWorld hp' w1
  native : ∀ id ws (hp : Heap W) w hp', HO.native id ws hp w hp' → (∃ ws', Acts ws hp ws' hp' ∧ w ∈ ws') ∧
    ∀ vs w0 v w1, ShowsAll hp.cell ws vs → ShowsWorld hp w0 → O.native id vs w0 = some (v, w1) → Shows hp'.cell w v ∧ ShowsWorld hp' w1

/-- the builtin functions give a result on words wherever they give one on values -/
structure Answers (HO : HOutside W) (O : Outside W) : Prop where
  prim : ∀ p ws (hp : Heap W) held vs w0 v w1, HeapOk hp held → ShowsAll hp.cell ws vs → (∀ w ∈ ws, Holds held w) → ShowsWorld hp w0 →
    coutside O p vs w0 = some (v, w1) → ∃ w hp', HO.prim p ws hp w hp'
  native : ∀ id ws (hp : Heap W) held vs w0 v w1, HeapOk hp held → ShowsAll hp.cell ws vs → (∀ w ∈ ws, Holds held w) → ShowsWorld hp w0 →
    O.native id vs w0 = some (v, w1) → ∃ w hp', HO.native id ws hp w hp'

/-- Whatever happens, the run goes on until it ends: it never gets stuck, and there is no run without end. -/
inductive AllEnd (malloc : List Nat → Nat) (HO : HOutside W) (units : List (List Lam)) : Conf W → Prop where
  | intro {c} : (c.ended ∨ ∃ c1, HStep malloc HO units c c1) → (∀ c1, HStep malloc HO units c c1 → AllEnd malloc HO units c1) →
      AllEnd malloc HO units c

/-- The machine runs a function which has captured nothing, in a frame of `n` registers in the current segment. It holds the objects
`held`, among them those that the function itself needs. -/
structure InHeap (n : Nat) (h : HMach W) (held : List SlotId) : Prop where
  self : ∃ v, Shows h.heap.cell (h.mem h.ctx.bp) v ∧ capturedOf v = []
  holds : Holds held (h.mem h.ctx.bp)
  heap : HeapOk h.heap held
  size : h.ctx.sp = h.ctx.bp + n
  some : 0 < n
  top : ∃ below, h.data = h.begin_ :: below
  last : h.end_ = h.begin_ + 256
  low : h.begin_ ≤ h.ctx.bp
  high : h.ctx.sp < h.end_
  there : ∀ b ∈ h.data, b ∈ h.segs
  once : h.data.Nodup
  apart : h.segs.Pairwise Apart

/-- a register that a caller may use, as `Callers` -/
def HCallers (h : HMach W) (p : Nat) : Prop :=
  (∃ b ∈ h.segs, b ≤ p ∧ p < b + 256) ∧ ¬ (h.ctx.bp ≤ p ∧ p < h.begin_ + 256)

/-- the objects are in registers of callers -/
def InCallers (h : HMach W) (mine : List SlotId) : Prop :=
  ∀ x ∈ mine, ∃ f ∈ h.frames, ∃ p, f.bp ≤ p ∧ p < f.sp ∧ HCallers h p ∧ h.mem p = .ptr x

/-- Compiled files are loaded one after the other, with the collector at work. Every run ends, whatever the collector does. When it has, the objects that the result and the
global variables lead to look like the expected values, and they are among those that the collector keeps. Every segment that the run
has allocated is freed again and no other. The callers find their registers and frames unchanged, and the objects that they use are
what they were. Before the next file is loaded, other code may run and the collector may work, as long as the global
variables keep their values. -/
def LoadsHeap (O : Outside W) (HO : HOutside W) (malloc : List Nat → Nat) (n : Nat) :
    List (List Lam) → CWorld MCode W → List (List Lam × Val × World W) → Prop
  | _, _, [] => True
  | units, w, (file, v, w1) :: more => ∀ (h : HMach W) held mine, ShowsWorld h.heap w → InHeap n h held → InCallers h mine →
      (∀ x ∈ mine, x ∈ held) →
      AllEnd malloc HO (units ++ [file]) ⟨h.loadSo units.length (file.length - 1), .go, []⟩ ∧
      ∀ h', HSteps malloc HO (units ++ [file]) ⟨h.loadSo units.length (file.length - 1), .go, []⟩ ⟨h', .go, []⟩ → h'.ctx.fn = .exit →
        ∃ held' u w', Shows h'.heap.cell h'.res u ∧ Holds held' h'.res ∧ Looks v u ∧
          ShowsWorld h'.heap w' ∧ Worlds Looks w1 w' ∧ HeapOk h'.heap held' ∧
          h'.ctx = { h.ctx with fn := .exit, label := 0 } ∧ h'.frames = h.frames ∧ h'.data = h.data ∧ h'.segs = h.segs ∧
          h'.begin_ = h.begin_ ∧ h'.end_ = h.end_ ∧ (∀ p, HCallers h p → h'.mem p = h.mem p) ∧
          (∀ x ∈ mine, x ∈ held') ∧ (∀ a u, Shows h.heap.cell a u → Holds mine a → Shows h'.heap.cell a u) ∧
          LoadsHeap O HO malloc n (units ++ [file]) w' more

end Spec.Compiled
