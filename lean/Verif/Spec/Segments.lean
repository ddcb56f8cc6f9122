import Verif.Spec.CompileText
import Verif.Model.SegMachine
/-
What it means that compiled files behave like the forms they were made from, on the stack of segments that the runtime has.
-/
open Spec.Lang Cora.Compile
namespace Spec.Compiled
variable {W : Type}

/-- A value that a run of the compiled files `units` can make. A function made by compiled code knows the number of its parameters and
the size of its frame, and the frame has less than 256 registers. A partial application has some, and not all, of the arguments. -/
inductive Sane (units : List (List Lam)) : MVal → Prop where
  | int (n) : Sane units (.int n)
  | bool (b) : Sane units (.bool b)
  | nil : Sane units .nil
  | str (s) : Sane units (.str s)
  | sym (x) : Sane units (.sym x)
  | cons {a d} : Sane units a → Sane units d → Sane units (.cons a d)
  | clo {n c caps code lam} : units[c.unit]? = some code → code[c.label]? = some lam → n = lam.params.length →
      c.nframe = frameSize lam → c.nframe < 256 → (∀ v ∈ caps, Sane units v) → Sane units (.clo n c caps)
  | prim {p n} : primArity p = some n → Sane units (.prim p)
  | native {id n} : n + 1 < 256 → Sane units (.native id n)
  | pap {f args n} : Sane units f → (∀ v ∈ args, Sane units v) → f.arity = some n → 0 < args.length → args.length < n →
      Sane units (.pap f args)

/-- global variables have such values -/
def SaneWorld (units : List (List Lam)) (w : CWorld MCode W) : Prop := ∀ x v, w.globals x = some v → Sane units v

/-- builtin functions make such values from such values -/
def KeepsSane (O : Outside W) : Prop :=
  (∀ units p args (r : W) v r', (∀ a ∈ args, Sane units a) → O.prim p args r = some (v, r') → Sane units v) ∧
  (∀ units id args (w : CWorld MCode W) v w', (∀ a ∈ args, Sane units a) → SaneWorld units w →
    O.native id args w = some (v, w') → Sane units v ∧ SaneWorld units w')

/-- every function of the file has less than 256 registers -/
def SmallFrames (file : List Lam) : Prop := ∀ lam ∈ file, frameSize lam < 256

/-- segments that do not overlap -/
def Apart (a b : Nat) : Prop := a + 256 ≤ b ∨ b + 256 ≤ a

/-- what `malloc` gives does not overlap what is allocated -/
def Fresh (malloc : List Nat → Nat) : Prop := ∀ heap, ∀ b ∈ heap, Apart (malloc heap) b

/-- the machine runs a function which has captured nothing, in a frame of `n` registers in the current segment -/
structure InSegment (n : Nat) (t : SMach W) : Prop where
  captured : capturedOf (t.mem t.ctx.bp) = []
  size : t.ctx.sp = t.ctx.bp + n
  some : 0 < n
  top : ∃ below, t.data = t.begin_ :: below
  last : t.end_ = t.begin_ + 256
  low : t.begin_ ≤ t.ctx.bp
  high : t.ctx.sp < t.end_
  there : ∀ b ∈ t.data, b ∈ t.heap
  once : t.data.Nodup
  apart : t.heap.Pairwise Apart

/-- a register that a caller may use: it is allocated, and not a register of the current segment from the current frame on -/
def Callers (t : SMach W) (p : Nat) : Prop :=
  (∃ b ∈ t.heap, b ≤ p ∧ p < b + 256) ∧ ¬ (t.ctx.bp ≤ p ∧ p < t.begin_ + 256)

/-- Generated C files are loaded one after the other, as in `LoadsText`, on the stack of segments. If `ends`, then every run ends.
When a run ends, the result and the world look like the expected ones, every segment that the run has allocated is freed again and no
other, and the callers find their registers and frames unchanged. -/
def LoadsSeg (ends : Prop) (O : Outside W) (malloc : List Nat → Nat) (n : Nat) :
    List Cora.Bytes → CWorld MCode W → List (Cora.Bytes × Val × World W) → Prop
  | _, _, [] => True
  | files, w, (text, v, w1) :: more => ∀ t : SMach W, t.world = w → InSegment n t →
      ∃ file, readFile text = some file ∧
        (ends → ∃ fuel t', goSeg malloc O (textBlock O (files ++ [text])) fuel (t.loadSo files.length file.start) none = .done t') ∧
        ∀ fuel t', goSeg malloc O (textBlock O (files ++ [text])) fuel (t.loadSo files.length file.start) none = .done t' →
          Looks v t'.res ∧ Worlds Looks w1 t'.world ∧
          t'.ctx = { t.ctx with fn := .exit, label := 0 } ∧ t'.frames = t.frames ∧
          t'.data = t.data ∧ t'.heap = t.heap ∧ t'.begin_ = t.begin_ ∧ t'.end_ = t.end_ ∧
          (∀ p, Callers t p → t'.mem p = t.mem p) ∧ LoadsSeg ends O malloc n (files ++ [text]) t'.world more

end Spec.Compiled
