import Verif.Spec.Machine
/-
The abstract machine of Spec/Machine.lean with traced functions, and what it means that two programs differ only in what they trace.
-/
namespace Spec.Machine

/-- One step of the machine in which the code number `tw` belongs to traced functions: such a function holds another one and a name. It
records the name and does what the other function does, which finds itself in its register 0. The list has the names recorded. -/
inductive TStep {W : Type} (tw : Nat) (sem : Sem W) : List Val → ASt W → ASt W → Prop where
  | plain (s s' : ASt W) : (∀ l r, s.cur ≠ .code (.user tw) l r) → AStep sem s s' → TStep tw sem [] s s'
  | traced (l nf nr gn gr : Nat) (c : Code) (gd rs ns : List Val) (sym : Val) (s s' : ASt W) :
      s.cur = .code (.user tw) l (.native (.user tw) nf nr [.native c gn gr gd, sym] :: rs) →
      TStep tw sem ns { s with cur := .code c l (.native c gn gr gd :: rs) } s' → TStep tw sem (sym :: ns) s s'

/-- `k` steps, with the names recorded -/
inductive TReach {W : Type} (tw : Nat) (sem : Sem W) : Nat → List Val → ASt W → ASt W → Prop where
  | zero (s : ASt W) : TReach tw sem 0 [] s s
  | succ (k : Nat) (ns ns' : List Val) (s s' s'' : ASt W) : TReach tw sem k ns s s' → TStep tw sem ns' s' s'' →
      TReach tw sem (k + 1) (ns ++ ns') s s''

/-- Two values are the same but for tracing: in any function inside either of them a traced function may stand for the function it
holds. A traced function takes as many arguments as the one it holds and has as large a frame. -/
inductive Same (tw : Nat) : Val → Val → Prop where
  | native (c : Code) (nf nr : Nat) (d d' : List Val) : d.length = d'.length →
      (∀ (i : Nat) v v', d[i]? = some v → d'[i]? = some v' → Same tw v v') → Same tw (.native c nf nr d) (.native c nf nr d')
  | left (c : Code) (nf nr : Nat) (d : List Val) (sym v' : Val) : Same tw (.native c nf nr d) v' →
      Same tw (.native (.user tw) nf nr [.native c nf nr d, sym]) v'
  | right (c : Code) (nf nr : Nat) (d : List Val) (sym v : Val) : Same tw v (.native c nf nr d) →
      Same tw v (.native (.user tw) nf nr [.native c nf nr d, sym])
  | cont (i : Nat) : Same tw (.cont i) (.cont i)
  | nil : Same tw .nil .nil
  | cons (a b a' b' : Val) : Same tw a a' → Same tw b b' → Same tw (.cons a b) (.cons a' b')
  | other (n : Nat) : Same tw (.other n) (.other n)

/-- one by one -/
def SameL (tw : Nat) (l l' : List Val) : Prop :=
  l.length = l'.length ∧ ∀ (i : Nat) v v', l[i]? = some v → l'[i]? = some v' → Same tw v v'

/-- how a block ends -/
def SameTerm (tw : Nat) : Term → Term → Prop
  | .ret v, .ret v' => Same tw v v'
  | .call l f a, .call l' f' a' => l = l' ∧ Same tw f f' ∧ SameL tw a a'
  | .tail f a, .tail f' a' => Same tw f f' ∧ SameL tw a a'
  | _, _ => False

/-- Code that does not look at whether functions are traced: the same function with the same captured values, started at the same label
with the same registers in the same world, does the same. A function keeps itself in its register 0. `R` says which worlds are the same
but for tracing. -/
def Blind {W : Type} (tw : Nat) (R : W → W → Prop) (sem : Sem W) : Prop :=
  ∀ n, n ≠ tw → ∀ l nf nr d d' rs rs' v v' w w', SameL tw d d' → SameL tw rs rs' → Same tw v v' → R w w' →
    ∀ o, sem n l (.native (.user n) nf nr d :: rs) v w = some o →
      ∃ o' q q', sem n l (.native (.user n) nf nr d' :: rs') v' w' = some o' ∧ o.regs = .native (.user n) nf nr d :: q ∧
        o'.regs = .native (.user n) nf nr d' :: q' ∧ SameL tw q q' ∧ SameTerm tw o.term o'.term ∧ R o.w o'.w

/-- activations -/
def SameF (tw : Nat) : AFrame → AFrame → Prop
  | .code c l r, .code c' l' r' => l = l' ∧ ∃ nf nr d d' rs rs', r = .native c nf nr d :: rs ∧ r' = .native c' nf nr d' :: rs' ∧
      Same tw (.native c nf nr d) (.native c' nf nr d') ∧ SameL tw rs rs'
  | .rest a, .rest a' => SameL tw a a'
  | .exit, .exit => True
  | .handler h, .handler h' => Same tw h h'
  | _, _ => False

/-- activations, one by one -/
def SameFs (tw : Nat) : List AFrame → List AFrame → Prop
  | [], [] => True
  | f :: fs, g :: gs => SameF tw f g ∧ SameFs tw fs gs
  | _, _ => False

/-- captured continuations -/
def SameK (tw : Nat) : Option (List AFrame × Val) → Option (List AFrame × Val) → Prop
  | none, none => True
  | some (p, h), some (p', h') => SameFs tw p p' ∧ Same tw h h'
  | _, _ => False

/-- states of the machine -/
structure SameSt {W : Type} (tw : Nat) (R : W → W → Prop) (s t : ASt W) : Prop where
  cur : SameF tw s.cur t.cur
  res : Same tw s.res t.res
  stack : SameFs tw s.stack t.stack
  len : s.conts.length = t.conts.length
  conts : ∀ (i : Nat) k k', s.conts[i]? = some k → t.conts[i]? = some k' → SameK tw k k'
  w : R s.w t.w

/-- contains no function: numbers, strings, symbols and lists of them -/
inductive Plainly : Val → Prop where
  | nil : Plainly .nil
  | other (n : Nat) : Plainly (.other n)
  | cons (a b : Val) : Plainly a → Plainly b → Plainly (.cons a b)

end Spec.Machine
