import Verif.Model.Str
import Verif.Model.Json
/-
Model of the command line built by `exec` and `popen`, /repo/lib/os.c.
-/
namespace Cora.Os

/-- lib/os.c:7-18 `cmdListStr`: every string followed by a blank. (The buffer functions are those of C05.) -/
def cmdListStr : List Bytes → Bytes
  | [] => []
  | s :: r => s ++ 32 :: cmdListStr r

/-- lib/os.c:20-27 `exec` and 29-41 `popen`: the command as the C functions `system` and `popen` see it, up to the first NUL -/
def command (args : List Bytes) : Bytes := (cmdListStr args).takeWhile (· ≠ 0)

/-- lib/os.c:25-26: `exec` gives the number of what `system` returned, an `int` -/
def execResult (status : BitVec 32) : Option Obj := makeNumber status.toInt

/-- lib/os.c:37-39: `popen` wraps the pointer the C function returned (NULL when it failed) -/
def popenResult (stream : Obj) : Option Obj := Json.makeCObj stream

/-- lib/os.c:45-46: the pointer `pclose` hands to the C function -/
def pcloseStream (arg : Obj) : Option Obj := Json.mustCObj arg

/-- lib/os.c:47: `coraReturn(co, res)`: the `int` itself becomes the word that is returned; the conversion from `int` to
the unsigned 64-bit `Obj` extends the sign -/
def pcloseResult (status : BitVec 32) : Obj := status.signExtend 64

/-- lib/os.c:32-33, src/types.c:170-178 `symbolStr` on an interned symbol: the mode, copied with its terminating NUL into a
buffer of 256 bytes; `none`: the assertion `l < sz` fails. The C function sees it up to the first NUL. -/
def popenMode (name : Bytes) : Option Bytes := if name.length + 1 < 256 then some (name.takeWhile (· ≠ 0)) else none

end Cora.Os
