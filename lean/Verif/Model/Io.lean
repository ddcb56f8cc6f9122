import Verif.Model.Str
/-
Model of `read-all`, `copy` and `write-bytes`, /repo/lib/io.c. A file to read is what is left of it and the end-of-file
indicator; reading does not fail. A file to write takes what the environment lets it take: one answer for each call of
`fwrite`.
-/
namespace Cora.Io

/-- an open file for reading: what is left, and `feof` -/
structure File where
  rest : Bytes
  eof : Bool
  deriving DecidableEq

/-- C's `fread(buf, 1, n, f)`: as many bytes as are left, at most `n`; the indicator is set when there are fewer -/
def fread (n : Nat) (f : File) : Bytes × File := (f.rest.take n, ⟨f.rest.drop n, f.eof || decide (f.rest.length < n)⟩)

/-- lib/io.c:81, 104 `BATCH_SIZE` -/
def batchSize : Nat := 64

theorem fread_less {f : File} (h : ¬ (fread batchSize f).1.length < batchSize) :
    (fread batchSize f).2.rest.length < f.rest.length := by
  simp only [fread, batchSize, List.length_take, List.length_drop] at *
  omega

/-- lib/io.c:76-95 `ioReadAll`: the loop, with what was read so far -/
def readLoop (dest : Bytes) (f : File) : Bytes × File :=
  if f.eof then (dest, f)
  else
    let r := fread batchSize f
    if h : r.1.length < batchSize then (dest ++ r.1, r.2)
    else readLoop (dest ++ r.1) r.2
termination_by f.rest.length
decreasing_by exact fread_less h

/-- lib/io.c:76-95 `read-all` -/
def readAll (f : File) : Bytes × File := readLoop [] f

/-- C's `fwrite(data, 1, len, to)`: the next answer says how many bytes are taken; when there is none left the file
takes everything -/
def fwrite (data : Bytes) (out : Bytes) : List Nat → Nat × Bytes × List Nat
  | [] => (data.length, out ++ data, [])
  | n :: as => (min n data.length, out ++ data.take n, as)

/-- lib/io.c:97-114 `ioCopy`: the number of bytes that were written is not looked at -/
def copy (f : File) (out : Bytes) (as : List Nat) : File × Bytes :=
  if f.eof then (f, out)
  else
    let r := fread batchSize f
    let w := fwrite r.1 out as
    if h : r.1.length < batchSize then (r.2, w.2.1)
    else copy r.2 w.2.1 w.2.2
termination_by f.rest.length
decreasing_by exact fread_less h

/-- lib/io.c:116-132 `ioWrite`: the loop from `off`; `sz < 0` is never true of a `size_t`. The fuel bounds the number of
rounds (`none`: it goes on). -/
def writeLoop : Nat → Bytes → Bytes → List Nat → Option Bytes
  | 0, _, _, _ => none
  | fuel + 1, data, out, as =>
    if data.length = 0 then some out
    else
      let w := fwrite data out as
      writeLoop fuel (data.drop w.1) w.2.1 w.2.2

end Cora.Io
