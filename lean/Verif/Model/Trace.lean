import Verif.Model.Str
/-
Model of tracing: /repo/src/trace.h, /repo/src/trace.c, /repo/lib/trace.c, and of the tool that reads trace files, /repo/tools/trace.go.

Simplifications: one thread. `fwrite` writes everything it is given, at once (the code goes through the buffer of the C library, which
is written at the latest when the file is closed). The clock and the thread number are part of the event.
-/
namespace Cora.Trace

abbrev Path := Bytes

/-- src/trace.h:12-24: an event as the caller of `traceEmitEvent` gives it, with the time. -/
structure Event where
  ph : Byte
  name : Bytes
  tid : UInt16
  id : UInt32
  ts : UInt64
deriving DecidableEq, Repr

/-- the bytes of a number in memory, least significant first -/
def le : Nat → Nat → Bytes
  | 0, _ => []
  | n + 1, v => UInt8.ofNat (v % 256) :: le n (v / 256)

/-- src/trace.h:17-24 `trace_event_t`, with the name after it. `name_len` is one byte. -/
def encode (e : Event) : Bytes :=
  [e.ph, UInt8.ofNat (e.name.length % 256)] ++ le 2 e.tid.toNat ++ le 4 e.id.toNat ++ le 8 e.ts.toNat ++ e.name

/-- src/trace.h:28 -/
def TRACE_BUFFER_SIZE : Nat := 1048576

/-- src/trace.c:6-8: `trace_file` (as the path of the open file), the used part of `trace_buffer`, and the contents of files -/
structure St where
  file : Option Path
  buf : Bytes
  disk : Path → Option Bytes

/-- src/trace.h:38-44 `traceFlush` -/
def St.flush (s : St) : St :=
  match s.file with
  | some p => if s.buf.length > 0 then { s with buf := [], disk := fun q => if q = p then (s.disk q).map (· ++ s.buf) else s.disk q } else s
  | none => s

/-- the name as `strlen` sees it -/
def cName (name : Bytes) : Bytes := name.takeWhile (· != 0)

/-- src/trace.h:46-65 `traceEmitEvent`. `none`: the write leaves the buffer. -/
def St.emit (s : St) (e : Event) : Option St :=
  match s.file with
  | none => some s
  | some _ =>
    let e := { e with name := cName e.name }
    let s := if s.buf.length + (16 + e.name.length) ≥ TRACE_BUFFER_SIZE then s.flush else s
    if s.buf.length + (16 + e.name.length) ≤ TRACE_BUFFER_SIZE then some { s with buf := s.buf ++ encode e } else none

/-- src/trace.c:10-16 `traceClose` -/
def St.close (s : St) : St := { s.flush with file := none }

/-- src/trace.c:18-23 `traceInit`; `ok` says whether `fopen` succeeds -/
def St.init (s : St) (p : Path) (ok : Bool) : St :=
  { file := if ok then some p else none, buf := [], disk := if ok then fun q => if q = p then some [] else s.disk q else s.disk }

/-- src/types.c:170-178 `symbolStr` with a buffer of 256 bytes, for a symbol that is interned. `none` is the failed assertion. -/
def symbolStr (name : Bytes) : Option Bytes := if name.length + 1 < 256 then some name else none

/-- lib/trace.c:6-17 `trace-enable` and `trace-disable`, the two events of a call of a traced function (lib/trace.c:19-30, src/trace.h:95-106),
and the end of the process (src/trace.c:22) -/
inductive Op where
  | enable (p : Path) (ok : Bool)
  | disable
  | emit (e : Event)
  | exit

/-- The events are those of traced functions: their names are symbols, which `traceWrap` puts into its buffer. -/
def St.op (s : St) : Op → Option St
  | .enable p ok => some (s.init p ok)
  | .disable => some s.close
  | .emit e => do
    let name ← symbolStr e.name
    s.emit { e with name := name }
  | .exit => some s.close

/-- a history -/
def St.run (s : St) : List Op → Option St
  | [] => some s
  | o :: r => (s.op o).bind fun s => s.run r

/-- src/trace.c:6-8: tracing is off -/
def St.start (disk : Path → Option Bytes) : St := ⟨none, [], disk⟩

/-! ### tools/trace.go -/

/-- the number in the bytes, least significant first (tools/trace.go:54-64) -/
def unle : Bytes → Nat
  | [] => 0
  | b :: r => b.toNat + 256 * unle r

/-- tools/trace.go:36-82: read the file, event by event. `none`: the tool stops with an error. -/
def decode (bs : Bytes) : Option (List Event) :=
  match bs with
  | [] => some []
  | ph :: rest =>
    if rest.length < 15 then none
    else if ph = 66 ∨ ph = 69 ∨ ph = 98 ∨ ph = 101 ∨ ph = 115 ∨ ph = 102 then
      let n := (rest.headD 0).toNat
      let body := rest.drop 15
      if body.length < n then none
      else
        (decode (body.drop n)).map fun r =>
          { ph := ph, name := body.take n, tid := UInt16.ofNat (unle ((rest.drop 1).take 2)), id := UInt32.ofNat (unle ((rest.drop 3).take 4)),
            ts := UInt64.ofNat (unle ((rest.drop 7).take 8)) } :: r
    else none
termination_by bs.length
decreasing_by simp only [List.length_drop, List.length_cons]; omega

end Cora.Trace
