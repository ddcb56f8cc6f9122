import Verif.Model.Trace
/-
Tracing from several threads: /repo/src/trace.h. The variables of the tracer are shared and no lock is held, so `traceEmitEvent` is not one
step: here it is three (the place is found, the event is written there, the offset is moved), and the steps of different threads can
interleave. (That the three steps are not atomic themselves, and that the compiler may reorder them, is left out.)
-/
namespace Cora.Trace

/-- src/trace.h:77-79 `traceTID` with the parameter `uint16_t tid` of `traceEmitEvent` (47): the low bits of `pthread_self()` -/
def traceTID (self : BitVec 64) : UInt16 := UInt16.ofNat (self.toNat % 2 ^ 32 % 2 ^ 16)

/-- where a thread is inside of `traceEmitEvent` -/
inductive Where where
  | outside
  | placed (e : Event) (pos : Nat)
  | written (e : Event)

/-- src/trace.c:6-8, shared by all threads: the open file, `trace_offset`, all of `trace_buffer`, the contents of files; and where the
threads are -/
structure Shared where
  file : Option Path
  offset : Nat
  mem : Nat → Byte
  disk : Path → Option Bytes
  threads : Nat → Where

/-- the bytes from `a` on -/
def bytesAt (mem : Nat → Byte) (a : Nat) : Nat → Bytes
  | 0 => []
  | n + 1 => mem a :: bytesAt mem (a + 1) n

/-- `memcpy` -/
def store (mem : Nat → Byte) (a : Nat) : Bytes → Nat → Byte
  | [] => mem
  | b :: r => store (fun i => if i = a then b else mem i) (a + 1) r

/-- src/trace.h:38-44 `traceFlush` -/
def Shared.flush (s : Shared) : Shared :=
  match s.file with
  | some p =>
    if s.offset > 0 then
      { s with offset := 0, disk := fun q => if q = p then (s.disk q).map (· ++ bytesAt s.mem 0 s.offset) else s.disk q }
    else s
  | none => s

/-- a thread goes to another place -/
def Shared.move (s : Shared) (t : Nat) (l : Where) : Shared := { s with threads := fun u => if u = t then l else s.threads u }

inductive Act where
  | place (t : Nat) (e : Event)
  | write (t : Nat)
  | bump (t : Nat)

/-- src/trace.h:46-65 `traceEmitEvent`, step by step, for a file that is open. `none`: not a step of this thread, or the write leaves the buffer. -/
def Shared.act (s : Shared) : Act → Option Shared
  | .place t e => -- 50-56
    match s.threads t with
    | .outside =>
      let s := if s.offset + (16 + e.name.length) ≥ TRACE_BUFFER_SIZE then s.flush else s
      some (s.move t (.placed e s.offset))
    | _ => none
  | .write t => -- 57-63
    match s.threads t with
    | .placed e pos =>
      if pos + (16 + e.name.length) ≤ TRACE_BUFFER_SIZE then
        some ({ s with mem := store s.mem pos (encode e) }.move t (.written e))
      else none
    | _ => none
  | .bump t => -- 64
    match s.threads t with
    | .written e => some ({ s with offset := s.offset + (16 + e.name.length) }.move t .outside)
    | _ => none

def Shared.run (s : Shared) : List Act → Option Shared
  | [] => some s
  | a :: r => (s.act a).bind fun s => s.run r

/-- the file is opened, src/trace.c:18-23; the buffer is a global variable and holds zeros at first -/
def Shared.opened (p : Path) (disk : Path → Option Bytes) : Shared :=
  { file := some p, offset := 0, mem := fun _ => 0, disk := fun q => if q = p then some [] else disk q, threads := fun _ => .outside }

/-- src/trace.c:10-16 `traceClose` -/
def Shared.close (s : Shared) : Shared := { s.flush with file := none }

end Cora.Trace
