/-
An abstract machine for functions, calls, currying and delimited control, in which every activation has its own
private registers. It says what calls, returns, tail calls, `try`, `throw`, `resume` and `apply` should do; it knows
nothing about stack memory, segments, pointers or stack positions.
-/
namespace Spec.Machine

/-- the code of a function: a compiled (or otherwise native) function without stack effects of its own, a partial
application, or one of the control builtins -/
inductive Code where
  | user (id : Nat)
  | curry
  | tryCatch
  | throw
  | resume
  | apply
  deriving DecidableEq

/-- values: functions with their frame size, arity and captured values; captured continuations; lists; anything
else -/
inductive Val where
  | native (code : Code) (nframe required : Nat) (data : List Val)
  | cont (id : Nat)
  | nil
  | cons (a b : Val)
  | other (n : Nat)

/-- how a basic block of a function ends: it returns a value, calls a function and wants to go on at a label, or
calls a function in tail position -/
inductive Term where
  | ret (v : Val)
  | call (label : Nat) (f : Val) (args : List Val)
  | tail (f : Val) (args : List Val)

/-- what running a basic block does: new contents of its registers, its end, and the new state of the world
(globals, heap, input and output) -/
structure Out (W : Type) where
  regs : List Val
  term : Term
  w : W

/-- the meaning of all user functions: for a function, a label, the registers, the last result and the world.
`none`: the block traps. -/
abbrev Sem (W : Type) := Nat → Nat → List Val → Val → W → Option (Out W)

/-- an activation: code suspended at a label with its registers; further arguments waiting for a function; the end of
the program; a `try` with its handler -/
inductive AFrame where
  | code (c : Code) (label : Nat) (regs : List Val)
  | rest (args : List Val)
  | exit
  | handler (h : Val)

/-- a machine state. `conts`: the captured continuations, each a piece of stack and its handler; `none` once it has
been resumed. -/
structure ASt (W : Type) where
  cur : AFrame
  res : Val
  stack : List AFrame
  conts : List (Option (List AFrame × Val))
  w : W

/-- return a value to the activation on top of the stack -/
inductive Return {W : Type} (v : Val) : ASt W → ASt W → Prop where
  | mk (s : ASt W) (f : AFrame) (fs : List AFrame) : s.stack = f :: fs →
      Return v s { s with cur := f, res := v, stack := fs }

/-- start a function with exactly its arguments: register 0 holds the function, then come the arguments, the other
registers hold anything -/
inductive Enter {W : Type} (f : Val) (args : List Val) : ASt W → ASt W → Prop where
  | mk (c : Code) (nframe required : Nat) (data junk : List Val) (s : ASt W) : f = .native c nframe required data →
      args.length = required → (f :: args ++ junk).length = nframe → nframe < 256 →
      Enter f args s { s with cur := .code c 0 (f :: args ++ junk) }

/-- apply a function to any number of arguments -/
inductive Applies {W : Type} : Val → List Val → ASt W → ASt W → Prop where
  /-- the right number -/
  | exact (f : Val) (args : List Val) (s s' : ASt W) : Enter f args s s' → Applies f args s s'
  /-- none: the function itself -/
  | none (c : Code) (nframe required : Nat) (data : List Val) (s s' : ASt W) : 0 < required →
      Return (.native c nframe required data) s s' → Applies (.native c nframe required data) [] s s'
  /-- too few: a function that remembers them -/
  | less (c : Code) (nframe required : Nat) (data args : List Val) (s s' : ASt W) : args ≠ [] →
      args.length < required →
      Return (.native .curry nframe (required - args.length) (.native c nframe required data :: args)) s s' →
      Applies (.native c nframe required data) args s s'
  /-- too many: the others wait for the result -/
  | more (c : Code) (nframe required : Nat) (data args : List Val) (s s' : ASt W) : required < args.length →
      Enter (.native c nframe required data) (args.take required)
        { s with stack := .rest (args.drop required) :: s.stack } s' →
      Applies (.native c nframe required data) args s s'

/-- the elements of a proper list -/
inductive IsList : Val → List Val → Prop where
  | nil : IsList .nil []
  | cons (a b : Val) (l : List Val) : IsList b l → IsList (.cons a b) (a :: l)

/-- the activations a `throw` may take with it: suspended code -/
def AFrame.isCode : AFrame → Prop
  | .code _ _ _ => True
  | _ => False

/-- one step -/
inductive AStep {W : Type} (sem : Sem W) : ASt W → ASt W → Prop where
  | ret (n l : Nat) (regs : List Val) (o : Out W) (v : Val) (s s' : ASt W) : s.cur = .code (.user n) l regs →
      sem n l regs s.res s.w = some o → o.regs.length = regs.length → o.term = .ret v →
      Return v { s with w := o.w } s' → AStep sem s s'
  | tail (n l : Nat) (regs : List Val) (o : Out W) (f : Val) (args : List Val) (s s' : ASt W) :
      s.cur = .code (.user n) l regs →
      sem n l regs s.res s.w = some o → o.regs.length = regs.length → o.term = .tail f args →
      Applies f args { s with w := o.w } s' → AStep sem s s'
  | call (n l : Nat) (regs : List Val) (o : Out W) (l' : Nat) (f : Val) (args : List Val) (s s' : ASt W) :
      s.cur = .code (.user n) l regs →
      sem n l regs s.res s.w = some o → o.regs.length = regs.length → o.term = .call l' f args →
      Applies f args { s with w := o.w, stack := .code (.user n) l' o.regs :: s.stack } s' → AStep sem s s'
  /-- a partial application goes on as the function it came from, with the remembered arguments first -/
  | curry (l nframe required : Nat) (g : Val) (got args junk junk' : List Val) (c : Code) (gn gr : Nat)
      (gd : List Val) (s : ASt W) :
      s.cur = .code .curry l (.native .curry nframe required (g :: got) :: args ++ junk) →
      args.length = required → g = .native c gn gr gd →
      (g :: got ++ args ++ junk').length = (.native .curry nframe required (g :: got) :: args ++ junk).length →
      AStep sem s { s with cur := .code c 0 (g :: got ++ args ++ junk') }
  /-- `(try thunk h)` calls the thunk under the handler `h` -/
  | try' (self thunk h : Val) (junk : List Val) (s s' : ASt W) :
      s.cur = .code .tryCatch 0 (self :: thunk :: h :: junk) →
      Applies thunk [] { s with stack := .handler h :: s.stack } s' → AStep sem s s'
  /-- the thunk has returned: so does the `try` -/
  | handler (h : Val) (s s' : ASt W) : s.cur = .handler h → Return s.res s s' → AStep sem s s'
  /-- `(throw v)`: the innermost handler is called with `v` and a function to resume, in the place of the `try` -/
  | throw (self v : Val) (junk : List Val) (pre post : List AFrame) (h : Val) (l : Nat) (s s' : ASt W) :
      s.cur = .code .throw l (self :: v :: junk) →
      s.stack = pre ++ .handler h :: post → (∀ f ∈ pre, f.isCode) →
      Applies h [v, .native .resume 2 1 [.cont s.conts.length]]
        { s with stack := post, conts := s.conts ++ [some (pre, h)] } s' → AStep sem s s'
  /-- resuming puts the captured piece of stack and its handler on the stack, and `throw` returns `v` in it -/
  | resume (nf nr id : Nat) (v : Val) (junk : List Val) (pre : List AFrame) (h : Val) (l : Nat) (s s' : ASt W) :
      s.cur = .code .resume l (.native .resume nf nr [.cont id] :: v :: junk) →
      s.conts[id]? = some (some (pre, h)) →
      Return v { s with stack := pre ++ .handler h :: s.stack, conts := s.conts.set id none } s' → AStep sem s s'
  /-- `(apply f args)` starts `f` with the elements of `args` -/
  | apply (self f l : Val) (args junk : List Val) (lbl : Nat) (s s' : ASt W) :
      s.cur = .code .apply lbl (self :: f :: l :: junk) → IsList l args →
      Enter f args s s' → AStep sem s s'
  /-- the result is applied to the arguments that were waiting for it -/
  | rest (args : List Val) (s s' : ASt W) : s.cur = .rest args → Applies s.res args s s' → AStep sem s s'

/-- any number of steps -/
inductive ASteps {W : Type} (sem : Sem W) : ASt W → ASt W → Prop where
  | refl (s : ASt W) : ASteps sem s s
  | step (s s' s'' : ASt W) : ASteps sem s s' → AStep sem s' s'' → ASteps sem s s''

end Spec.Machine
