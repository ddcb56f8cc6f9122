/-
Model of /repo/lib/chan.cora and of `perform`, `wrap`, `choice` in /repo/lib/cml.cora. `V` are the values, with
`ff` = `false` and `unit` = `()`. `K` are the continuations: performing an operation that has to wait throws to
the scheduler with the continuation of the coroutine (C26). The queues are lists, first element first out (C46).
A state made with `gensym` is a number (C12 gives a fresh symbol each time) and `done` tells whether its value is
'Done or 'Wait. Wrap functions are pure.
-/
namespace Cora.Chan

variable {K V : Type} [DecidableEq V]

/-- lib/chan.cora:53-57: `[state k val wrap]`, an entry of the send queue -/
structure SItem (K V : Type) where
  state : Nat
  resume : K
  val : V
  wrap : V → V

/-- lib/chan.cora:24-28: `[state k wrap]`, an entry of the receive queue -/
structure RItem (K V : Type) where
  state : Nat
  resume : K
  wrap : V → V

/-- the store: the queues of every channel (lib/chan.cora:9-10), the next `gensym`, the values of the states, and
the tasks given to the scheduler (lib/cml.cora:23-24) which resume a continuation with a value -/
structure St (K V : Type) where
  sendq : Nat → List (SItem K V)
  recvq : Nat → List (RItem K V)
  gen : Nat
  done : Nat → Bool
  tasks : List (K × V)

/-- before any operation -/
def St.init : St K V := ⟨fun _ => [], fun _ => [], 0, fun _ => false, []⟩

/-- update a function at one point -/
def upd {β : Type} (f : Nat → β) (i : Nat) (x : β) : Nat → β := fun j => if j = i then x else f j

/-- lib/chan.cora:12-22 `recv-try`, the argument being the send queue -/
def recvLoop (ff unit : V) (c : Nat) (s : St K V) : List (SItem K V) → V × St K V
  | [] => (ff, { s with sendq := upd s.sendq c [] })
  | it :: q =>
    if s.done it.state then recvLoop ff unit c s q
    else (it.val, { s with
      sendq := upd s.sendq c q
      tasks := s.tasks ++ [(it.resume, it.wrap unit)]
      done := upd s.done it.state true })

/-- lib/chan.cora:12-22 `recv-try` -/
def recvTry (ff unit : V) (c : Nat) (s : St K V) : V × St K V := recvLoop ff unit c s (s.sendq c)

/-- lib/chan.cora:24-28 `recv-block` -/
def recvBlock (c : Nat) (k : K) (wrap : V → V) (s : St K V) : St K V :=
  { s with gen := s.gen + 1, done := upd s.done s.gen false,
           recvq := upd s.recvq c (s.recvq c ++ [⟨s.gen, k, wrap⟩]) }

/-- lib/chan.cora:38-51 `send-try`, the argument being the receive queue -/
def sendLoop (ff unit : V) (c : Nat) (val : V) (s : St K V) : List (RItem K V) → V × St K V
  | [] => (ff, { s with recvq := upd s.recvq c [] })
  | it :: q =>
    if s.done it.state then sendLoop ff unit c val s q
    else (unit, { s with
      recvq := upd s.recvq c q
      tasks := s.tasks ++ [(it.resume, it.wrap val)]
      done := upd s.done it.state true })

/-- lib/chan.cora:38-51 `send-try` -/
def sendTry (ff unit : V) (c : Nat) (val : V) (s : St K V) : V × St K V := sendLoop ff unit c val s (s.recvq c)

/-- lib/chan.cora:53-57 `send-block` -/
def sendBlock (c : Nat) (k : K) (val : V) (wrap : V → V) (s : St K V) : St K V :=
  { s with gen := s.gen + 1, done := upd s.done s.gen false,
           sendq := upd s.sendq c (s.sendq c ++ [⟨s.gen, k, val, wrap⟩]) }

/-- an operation `[try block wrap]` -/
structure Op (K V : Type) where
  try' : St K V → V × St K V
  block : K → (V → V) → St K V → St K V
  wrap : V → V

/-- lib/chan.cora:33-36 `chan-recv` -/
def chanRecv (ff unit : V) (c : Nat) : Op K V := ⟨recvTry ff unit c, fun k wrap => recvBlock c k wrap, fun x => x⟩

/-- lib/chan.cora:60-63 `chan-send` -/
def chanSend (ff unit : V) (c : Nat) (val : V) : Op K V :=
  ⟨sendTry ff unit c val, fun k wrap => sendBlock c k val wrap, fun x => x⟩

/-- lib/cml.cora:103-104 `wrap` -/
def wrapOp (op : Op K V) (fn : V → V) : Op K V := { op with wrap := fun v => fn (op.wrap v) }

/-- lib/cml.cora:106-110 `choice-ops-try` -/
def choiceOpsTry (ff : V) : List (Op K V) → St K V → V × St K V
  | [], s => (ff, s)
  | op :: remain, s =>
    let (v, s) := op.try' s
    if v = ff then choiceOpsTry ff remain s else (op.wrap v, s)

/-- lib/cml.cora:114-120: the `block` of a choice -/
def choiceBlock (ops : List (Op K V)) (k : K) (wrap : V → V) (s : St K V) : St K V :=
  ops.foldl (fun s op => op.block k (fun v => wrap (op.wrap v)) s) s

/-- lib/cml.cora:112-121 `choice-op`. (The macro `choice`, 145-146, shuffles the alternatives first, C49.) -/
def choiceOp (ff : V) (ops : List (Op K V)) : Op K V := ⟨choiceOpsTry ff ops, choiceBlock ops, fun x => x⟩

/-- lib/cml.cora:156-169 `perform`: the result if the operation is done at once, `none` if the coroutine is left
waiting -/
def perform (ff : V) (op : Op K V) (k : K) (s : St K V) : Option V × St K V :=
  let (v, s) := op.try' s
  if v = ff then (none, op.block k op.wrap s) else (some (op.wrap v), s)

/-- at most one result, with its owner -/
def results (k : K) : Option V → List (K × V)
  | some v => [(k, v)]
  | none => []

/-- a history of performed operations; the results of those done at once are collected in the order they happen -/
def run (ff : V) : List (K × Op K V) → St K V → List (K × V) × St K V
  | [], s => ([], s)
  | (k, op) :: r, s =>
    let (v, s) := perform ff op k s
    let (out, s) := run ff r s
    (results k v ++ out, s)

end Cora.Chan
