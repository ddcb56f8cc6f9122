import Verif.Model.VM
import Verif.Spec.Traced
/-
Model of traced functions, /repo/lib/trace.c:22-55, on the machine of Model/VM. The C function `traceWrap` is the code number `tw`. Of
the trace only the names of the calls are kept, in the order in which the calls begin; how events get into the file is in Model/Trace.
-/
open Spec.Machine
namespace Cora.VM

variable {W : Type}

/-- One round of the loop of `coraRun` when `traceWrap` (lib/trace.c:19-31) may be the code. It calls the function it wraps as a C
function, with the frame and the label it got itself; that call runs the block of that function, which may be `traceWrap` again. The
fuel bounds the depth of these C calls. `fits` says whether the name fits into the buffer (src/types.c:171-178). The code of a block
does not look at `ctx.fn`, so we set it. -/
def stepT (tw : Nat) (fits : Val → Bool) (malloc : List Nat → Nat) (sem : Sem W) : Nat → Cora W → Option (Cora W × List Val)
  | 0, _ => none
  | n + 1, c =>
    if c.ctx.fn = some (.user tw) then
      if c.valid c.ctx.bp then
        match c.mem c.ctx.bp with
        | .native _ _ _ [origin, sym] =>
          match origin with
          | .native code _ _ _ =>
            if fits sym then do
              let c ← c.store c.ctx.bp [origin]
              let (c, ns) ← stepT tw fits malloc sem n { c with ctx := { c.ctx with fn := some code } }
              some (c, sym :: ns)
            else none
          | _ => none
        | _ => none
      else none
    else (step malloc sem c).map fun c => (c, [])

/-- rounds, with the names recorded; `n` bounds the depth of C calls in a round -/
def runT (tw : Nat) (fits : Val → Bool) (malloc : List Nat → Nat) (sem : Sem W) (n : Nat) : Nat → Cora W → Option (Cora W × List Val)
  | 0, c => some (c, [])
  | k + 1, c => do
    let (c, ns) ← runT tw fits malloc sem n k c
    let (c, ns') ← stepT tw fits malloc sem n c
    some (c, ns ++ ns')

/-- lib/trace.c:33-41 `builtinTrace`: the new globals. Symbols are `.other`; only interned symbols have an entry in the globals.
`none`: the assertion of `mustNative` (src/types.c:213-218) or of `makeNative` (src/types.c:197) fails. -/
def builtinTrace (tw : Nat) (g : Nat → Val) (s : Nat) : Option (Nat → Val) :=
  match g s with
  | .native c nframe required d =>
    if nframe > 0 then
      some fun x => if x = s then .native (.user tw) nframe required [.native c nframe required d, .other s] else g x
    else none
  | _ => none

/-- lib/trace.c:43-55 `builtinUntrace`: the new globals and the result -/
def builtinUntrace (tw : Nat) (g : Nat → Val) (s : Nat) : Option ((Nat → Val) × Val) :=
  match g s with
  | .native c _ _ d =>
    match d with
    | [d0, d1] =>
      match d1 with
      | .other x => if c = .user tw ∧ x = s then some (fun y => if y = s then d0 else g y, d0) else some (g, .nil)
      | _ => some (g, .nil)
    | _ => some (g, .nil)
  | _ => none

end Cora.VM
