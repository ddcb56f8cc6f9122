/-
Model of sending and receiving in /repo/lib/net.c:21-38, 129-165, 174-208 and /repo/lib/async.cora:128-203. The
operating system is a list of answers to the calls of `send` and `recv`, one per call. Lengths and positions are
natural numbers (`int` in the code).
-/
namespace Cora.Net

/-- the answer to one call of `send` or `recv` with room for `m` bytes: `moved n` moves `min n m` bytes, `again` is
EAGAIN, `err e` another error -/
inductive Ans where
  | moved (n : Nat)
  | again
  | err (e : Nat)

/-- what `net-send` and `net-recv` return: `['ok]`, `['block pos]`, `['err errno]` -/
inductive NetRes where
  | ok
  | block (pos : Nat)
  | err (errno : Nat)
  deriving DecidableEq

/-- lib/net.c:131-165 `netSend`: the result, the bytes handed to the system and the answers not used. `none`: the
answers ran out, the loop still runs. -/
def netSend (buf : List UInt8) : Nat → List Ans → Option (NetRes × List UInt8 × List Ans)
  | pos, [] => if pos < buf.length then none else some (.ok, [], [])
  | pos, a :: as =>
    if pos < buf.length then
      match a with
      | .again => some (.block pos, [], as)
      | .err e => some (.err e, [], as)
      | .moved n =>
        match netSend buf (pos + min n (buf.length - pos)) as with
        | none => none
        | some (r, bs, as) => some (r, (buf.drop pos).take (min n (buf.length - pos)) ++ bs, as)
    else some (.ok, [], a :: as)

/-- what is left to read, and the buffer -/
structure Inp where
  inp : List UInt8
  buf : List UInt8

/-- one successful call of `recv` at position `pos` -/
def Inp.fill (s : Inp) (pos n : Nat) : Inp :=
  { inp := s.inp.drop n, buf := s.buf.take pos ++ s.inp.take n ++ s.buf.drop (pos + n) }

/-- how many bytes a call of `recv` moves: not more than there is room for and not more than there is to read -/
def Inp.moves (s : Inp) (pos n : Nat) : Nat := min (min n (s.buf.length - pos)) s.inp.length

/-- lib/net.c:176-209 `netRecv`. A call that moves nothing (the peer has closed the connection) is not told apart. -/
def netRecv : Inp → Nat → List Ans → Option (NetRes × Inp × List Ans)
  | s, pos, [] => if pos < s.buf.length then none else some (.ok, s, [])
  | s, pos, a :: as =>
    if pos < s.buf.length then
      match a with
      | .again => some (.block pos, s, as)
      | .err e => some (.err e, s, as)
      | .moved n => netRecv (s.fill pos (s.moves pos n)) (pos + s.moves pos n) as
    else some (.ok, s, a :: as)

/-- the pattern `[block pos]` of lib/async.cora:132, 160, 183: `block` is a variable there, so the pattern fits every
list of two elements -/
def NetRes.two : NetRes → Option Nat
  | .ok => none
  | .block pos => some pos
  | .err e => some e

/-- how an operation of lib/async.cora stands: the task goes on with a result, or it waits, or the fuel is used up -/
inductive Out (α : Type) where
  | done (res : NetRes) (a : α)
  | waits (a : α)
  | more

/-- lib/async.cora:158-203 `send`: `send-op` tries at once (181-186), then the callback runs `send-handler`
(158-178) whenever the system reports the connection writable. `sent` collects the bytes handed to the system. -/
def send (buf : List UInt8) : Nat → Nat → List UInt8 → List Ans → Out (List UInt8)
  | 0, _, _, _ => .more
  | fuel + 1, pos, sent, as =>
    match netSend buf pos as with
    | none => .waits sent
    | some (r, bs, as) =>
      match r.two with
      | some pos => send buf fuel pos (sent ++ bs) as
      | none => .done r (sent ++ bs)

/-- lib/async.cora:128-156 `recv`: the callback runs `recv-handler` whenever the system reports the connection
readable -/
def recv : Nat → Nat → Inp → List Ans → Out Inp
  | 0, _, _, _ => .more
  | fuel + 1, pos, s, as =>
    match netRecv s pos as with
    | none => .waits s
    | some (r, s, as) =>
      match r.two with
      | some pos => recv fuel pos s as
      | none => .done r s

/-- lib/net.c:21-37 `splitHostAndPort` -/
def splitHostAndPort (s : List UInt8) : Option (List UInt8 × List UInt8) :=
  let i := (s.takeWhile (· != 58)).length
  if i = s.length then none else some (s.take i, s.drop (i + 1))

end Cora.Net
