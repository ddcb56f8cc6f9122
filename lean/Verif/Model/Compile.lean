import Verif.Spec.Lang
/-
Model of the passes of the compiler, /repo/lib/toc.cora: `parse`, `closure-convert`, `tailify`, `liveness-analyze`,
`collect-lambda` and `collect-cont`. They work on expanded core forms.

The code represents every intermediate program as a list structure with keywords (`%const`, `%closure`, `return` ...)
and finds out what a list is by pattern matching. The model has a type for each intermediate language. This leaves
out programs that use the keywords of the passes as variables in operator position (`(call x y)` for a function
`call`).
`gensym` is a counter. Symbols collected for the table of globals (`add-symbol-to-list`) are in
Model/CodeGen.lean (`globalsOf`); here a global is referred to by its name.
-/
open Spec.Lang
namespace Cora.Compile

/-! ### parse -/

/-- what `parse` makes: lib/toc.cora:54-85 -/
inductive Exp1 where
  | const (d : Datum)
  | global (x : Sym)
  | loc (x : Sym)
  | lam (ps : List Sym) (body : Exp1)
  | ite (a b c : Exp1)
  | seq (a b : Exp1)
  | bind (x : Sym) (e b : Exp1)
  | prim (p : String) (args : List Exp1)
  | app (f : Exp1) (args : List Exp1)

/-- lib/toc.cora:50-52 `temp-list`; the second component is the counter of `gensym` -/
def tempList : Nat → List Sym → Nat → List Sym × Nat
  | 0, res, k => (res, k)
  | n + 1, res, k => tempList n (.gen k :: res) (k + 1)

/-- lib/toc.cora:63: is it a form `['if . exp1]` -/
def isIf : Core → Bool
  | .ite _ _ _ => true
  | _ => false

/-- lib/toc.cora:71: is it a form `[['lambda . exp1] ['if . exp2]]` -/
def lamIf : Core → List Core → Bool
  | .lam _ _, [a] => isIf a
  | _, _ => false

/-- lib/toc.cora:29-48, 84 `builtin?`, `builtin->args`: the primitive in operator position and how many arguments it
takes. The table `*builtin-prims*` is that of the primitives of the language. -/
def builtin : Core → Option (String × Nat)
  | .var (.named p) => (primArity p).map fun n => (p, n)
  | _ => none

mutual
/-- lib/toc.cora:54-85 `parse`. `env`: the local variables. `none`: the error "primitive call mismatch".
The two rewritings of 63-66 and 71-73 and the one of 81-82 are applied and parsed in one go. -/
def parse (env : List Sym) : Core → Nat → Option (Exp1 × Nat)
  | .lit c, k => some (.const c.datum, k)
  | .quote d, k => some (.const d, k)
  | .var x, k => some (if x ∈ env then .loc x else .global x, k)
  | .lam ps b, k => do
    let (b', k) ← parse (ps ++ env) b k
    some (.lam ps b', k)
  | .ite a b c, k =>
    if isIf a then do
      -- (let f (lambda (v) (if v b c)) (f a))
      let f := Sym.gen k
      let v := Sym.gen (k + 1)
      let (b', k) ← parse (v :: env) b (k + 2)
      let (c', k) ← parse (v :: env) c k
      let (a', k) ← parse (f :: env) a k
      some (.bind f (.lam [v] (.ite (.loc v) b' c')) (.app (.loc f) [a']), k)
    else do
      let (a', k) ← parse env a k
      let (b', k) ← parse env b k
      let (c', k) ← parse env c k
      some (.ite a' b' c', k)
  | .seq a b, k => do
    let (a', k) ← parse env a k
    let (b', k) ← parse env b k
    some (.seq a' b', k)
  | .bind x e b, k => do
    let (e', k) ← parse env e k
    let (b', k) ← parse (x :: env) b k
    some (.bind x e' b', k)
  | .app f args, k =>
    if lamIf f args then do
      -- (let g f (g . args))
      let g := Sym.gen k
      let (f', k) ← parse env f (k + 1)
      let (args', k) ← parseList (g :: env) args k
      some (.bind g f' (.app (.loc g) args'), k)
    else match builtin f with
      | some (p, n) =>
        if n = args.length then do
          let (args', k) ← parseList env args k
          some (.prim p args', k)
        else if args.length < n then do
          -- (lambda tmps (p args... tmps...))
          let (tmps, k) := tempList (n - args.length) [] k
          let (args', k) ← parseList (tmps ++ env) args k
          some (.lam tmps (.prim p (args' ++ tmps.map .loc)), k)
        else none
      | none => do
        let (f', k) ← parse env f k
        let (args', k) ← parseList env args k
        some (.app f' args', k)
/-- `(map (parse env globals) ls)` -/
def parseList (env : List Sym) : List Core → Nat → Option (List Exp1 × Nat)
  | [], k => some ([], k)
  | e :: es, k => do
    let (e', k) ← parse env e k
    let (es', k) ← parseList env es k
    some (e' :: es', k)
end

/-! ### free variables and closure conversion -/

/-- lib/toc.cora:87-90 `union` -/
def union : List Sym → List Sym → List Sym
  | [], s => s
  | x :: y, s => if x ∈ s then union y s else x :: union y s

/-- lib/toc.cora:92-95 `diff` -/
def diff : List Sym → List Sym → List Sym
  | [], _ => []
  | x :: y, s => if x ∈ s then diff y s else x :: diff y s

mutual
/-- lib/toc.cora:106-121 `free-vars`, on the result of `parse` -/
def Exp1.free : Exp1 → List Sym
  | .const _ => []
  | .global _ => []
  | .loc x => [x]
  | .lam ps b => diff b.free ps
  | .ite a b c => union (union (union [] a.free) b.free) c.free
  | .seq a b => union (union [] a.free) b.free
  | .bind x e b => union e.free (diff b.free [x])
  | .prim _ args => Exp1.frees [] args
  | .app f args => Exp1.frees (union [] f.free) args
/-- `(foldl union acc (map free-vars l))` -/
def Exp1.frees (acc : List Sym) : List Exp1 → List Sym
  | [] => acc
  | e :: es => Exp1.frees (union acc e.free) es
end

/-- a reference to a local variable or, `['%closure-ref i]`, to a captured one -/
inductive Ref where
  | loc (x : Sym)
  | cap (i : Nat)
  deriving DecidableEq

/-- lib/toc.cora:123-136: what `closure-convert` makes; `closure` is `['%closure ['lambda ps body] . frees]` -/
inductive Exp where
  | const (d : Datum)
  | global (x : Sym)
  | ref (r : Ref)
  | closure (ps : List Sym) (body : Exp) (frees : List Ref)
  | ite (a b c : Exp)
  | seq (a b : Exp)
  | bind (x : Sym) (e b : Exp)
  | prim (p : String) (args : List Exp)
  | app (f : Exp) (args : List Exp)

/-- lib/toc.cora:15-21 `index`, with `none` for -1 -/
def index (x : Sym) : List Sym → Option Nat
  | [] => none
  | a :: b => if x = a then some 0 else (index x b).map (· + 1)

/-- lib/toc.cora:125-128 -/
def convVar (fvs : List Sym) (x : Sym) : Ref :=
  match index x fvs with
  | none => .loc x
  | some i => .cap i

mutual
/-- lib/toc.cora:123-136 `closure-convert` -/
def conv (fvs : List Sym) : Exp1 → Exp
  | .const d => .const d
  | .global x => .global x
  | .loc x => .ref (convVar fvs x)
  | .lam ps b =>
    let fvs1 := (Exp1.lam ps b).free
    .closure ps (conv fvs1 b) (fvs1.map (convVar fvs))
  | .ite a b c => .ite (conv fvs a) (conv fvs b) (conv fvs c)
  | .seq a b => .seq (conv fvs a) (conv fvs b)
  | .bind x e b => .bind x (conv fvs e) (conv fvs b)
  | .prim p args => .prim p (convs fvs args)
  | .app f args => .app (conv fvs f) (convs fvs args)
def convs (fvs : List Sym) : List Exp1 → List Exp
  | [] => []
  | e :: es => conv fvs e :: convs fvs es
end

/-! ### tailify -/

mutual
/-- lib/toc.cora:143-167: expressions without calls, as operands -/
inductive Smp where
  | const (d : Datum)
  | global (x : Sym)
  | ref (r : Ref)
  | closure (ps : List Sym) (body : Stm) (frees : List Ref)
/-- lib/toc.cora:143-167, 238-241: what `tailify` makes: `['return e]`, `['tailcall [f . args]]`,
`['call [f . args] ['continuation [val] k]]`, `['let x e s]`, `['let x [['%builtin p] . args] s]`, `['do e s]` and
`['if e a b]`. `live` is there only after `liveness-analyze` (172-184): `['%continuation [val] k . live]`; before that
it is empty and means nothing. -/
inductive Stm where
  | ret (e : Smp)
  | tail (f : Smp) (args : List Smp)
  | call (f : Smp) (args : List Smp) (val : Sym) (k : Stm) (live : List Sym)
  | bind (x : Sym) (e : Smp) (s : Stm)
  | prim (x : Sym) (p : String) (args : List Smp) (s : Stm)
  | seq (e : Smp) (s : Stm)
  | ite (e : Smp) (a b : Stm)
end

/-- the parameter `next` of `tailify`: `id` (lib/toc.cora:138), or another function; the code tells them apart at 163 -/
inductive Next where
  | id
  | fn (g : Smp → Nat → Stm × Nat)

/-- apply `next` -/
def Next.ap : Next → Smp → Nat → Stm × Nat
  | .id, x, k => (.ret x, k)
  | .fn g, x, k => g x k

/-- lib/toc.cora:151: `symbol?` -/
def Smp.isLoc : Smp → Bool
  | .ref (.loc _) => true
  | _ => false

/-- lib/toc.cora:162, 238-241: a primitive: `wrap-var` -/
def finishPrim (p : String) (next : Next) (args : List Smp) (k : Nat) : Stm × Nat :=
  let tmp := Sym.gen k
  let (s, k) := next.ap (.ref (.loc tmp)) (k + 1)
  (.prim tmp p args s, k)

/-- lib/toc.cora:163-165: a call -/
def finishCall (next : Next) (f : Smp) (args : List Smp) (k : Nat) : Stm × Nat :=
  match next with
  | .id => (.tail f args, k)
  | .fn g =>
    let val := Sym.gen k
    let (s, k) := g (.ref (.loc val)) (k + 1)
    (.call f args val s [], k)

mutual
/-- lib/toc.cora:143-157 `tailify` -/
def tailify : Exp → Next → Nat → Stm × Nat
  | .const d, next, k => next.ap (.const d) k
  | .global x, next, k => next.ap (.global x) k
  | .ref r, next, k => next.ap (.ref r) k
  | .ite a b c, next, k =>
    tailify a (.fn fun ra k =>
      let (b', k) := tailify b next k
      let (c', k) := tailify c next k
      (.ite ra b' c', k)) k
  | .seq a b, next, k =>
    tailify a (.fn fun ra k =>
      if ra.isLoc then tailify b next k
      else
        let (b', k) := tailify b next k
        (.seq ra b', k)) k
  | .bind x e b, next, k =>
    tailify e (.fn fun re k =>
      let (b', k) := tailify b next k
      (.bind x re b', k)) k
  | .closure ps body frees, next, k =>
    let (s, k) := tailify body .id k
    next.ap (.closure ps s frees) k
  | .prim p args, next, k => tailifyList args (finishPrim p next) k
  | .app f args, next, k =>
    tailify f (.fn fun rf k => tailifyList args (finishCall next rf) k) k
/-- lib/toc.cora:159-167 `tailify-list`; what is done with the list at the end (160-165) is the parameter -/
def tailifyList : List Exp → (List Smp → Nat → Stm × Nat) → Nat → Stm × Nat
  | [], g, k => g [] k
  | e :: es, g, k => tailify e (.fn fun r k => tailifyList es (fun rs k => g (r :: rs) k) k) k
end

/-! ### liveness -/

/-- the local variable of a reference -/
def Ref.free : Ref → List Sym
  | .loc x => [x]
  | .cap _ => []

mutual
/-- lib/toc.cora:106-121 `free-vars`, on the result of `tailify` -/
def Smp.free : Smp → List Sym
  | .const _ => []
  | .global _ => []
  | .ref r => r.free
  | .closure ps body frees => frees.foldl (fun acc r => union acc r.free) (union [] (diff body.free ps))
def Stm.free : Stm → List Sym
  | .ret e => e.free
  | .tail f args => Smp.frees (union [] f.free) args
  | .call f args val k _ => union (union [] (Smp.frees (union [] f.free) args)) (diff k.free [val])
  | .bind x e s => union e.free (diff s.free [x])
  | .prim x _ args s => union (Smp.frees [] args) (diff s.free [x])
  | .seq e s => union (union [] e.free) s.free
  | .ite e a b => union (union (union [] e.free) a.free) b.free
def Smp.frees (acc : List Sym) : List Smp → List Sym
  | [] => acc
  | e :: es => Smp.frees (union acc e.free) es
end

mutual
/-- lib/toc.cora:172-184 `liveness-analyze`. The first argument of the function in the code does not influence the
result. -/
def Smp.liveness : Smp → Smp
  | .const d => .const d
  | .global x => .global x
  | .ref r => .ref r
  | .closure ps body frees => .closure ps body.liveness frees
def Stm.liveness : Stm → Stm
  | .ret e => .ret e.liveness
  | .tail f args => .tail f.liveness (Smp.livenesses args)
  | .call f args val k _ => .call f.liveness (Smp.livenesses args) val k.liveness (diff k.free [val])
  | .bind x e s => .bind x e.liveness s.liveness
  | .prim x p args s => .prim x p (Smp.livenesses args) s.liveness
  | .seq e s => .seq e.liveness s.liveness
  | .ite e a b => .ite e.liveness a.liveness b.liveness
def Smp.livenesses : List Smp → List Smp
  | [] => []
  | e :: es => e.liveness :: Smp.livenesses es
end

/-! ### collect-lambda and collect-cont -/

/-- operands when functions are numbered; `closure` is `['%closure label nargs nframe . frees]` -/
inductive CSmp where
  | const (d : Datum)
  | global (x : Sym)
  | ref (r : Ref)
  | closure (label nargs nframe : Nat) (frees : List Ref)

/-- statements when functions are numbered but continuations are still in place -/
inductive LStm where
  | ret (e : CSmp)
  | tail (f : CSmp) (args : List CSmp)
  | call (f : CSmp) (args : List CSmp) (val : Sym) (k : LStm) (live : List Sym)
  | bind (x : Sym) (e : CSmp) (s : LStm)
  | prim (x : Sym) (p : String) (args : List CSmp) (s : LStm)
  | seq (e : CSmp) (s : LStm)
  | ite (e : CSmp) (a b : LStm)

/-- statements when continuations are numbered: `['call [f . args] label . live]` -/
inductive CStm where
  | ret (e : CSmp)
  | tail (f : CSmp) (args : List CSmp)
  | call (f : CSmp) (args : List CSmp) (label : Nat) (live : List Sym)
  | bind (x : Sym) (e : CSmp) (s : CStm)
  | prim (x : Sym) (p : String) (args : List CSmp) (s : CStm)
  | seq (e : CSmp) (s : CStm)
  | ite (e : CSmp) (a b : CStm)

/-- `['%continuation [val] body . live]` -/
structure Cont where
  val : Sym
  body : CStm
  live : List Sym

/-- `['lambda params body . conts]` -/
structure Lam where
  params : List Sym
  body : CStm
  conts : List Cont

/-- lib/toc.cora:186-200 `collect-cont`: the statement with its continuations replaced by numbers, and the
continuations, last first -/
def collectCont : LStm → List Cont → CStm × List Cont
  | .ret e, cs => (.ret e, cs)
  | .tail f args, cs => (.tail f args, cs)
  | .call f args val k live, cs =>
    let (k', cs) := collectCont k cs
    (.call f args (cs.length + 1) live, ⟨val, k', live⟩ :: cs)
  | .bind x e s, cs =>
    let (s', cs) := collectCont s cs
    (.bind x e s', cs)
  | .prim x p args s, cs =>
    let (s', cs) := collectCont s cs
    (.prim x p args s', cs)
  | .seq e s, cs =>
    let (s', cs) := collectCont s cs
    (.seq e s', cs)
  | .ite e a b, cs =>
    let (a', cs) := collectCont a cs
    let (b', cs) := collectCont b cs
    (.ite e a' b', cs)

/-- lib/toc.cora:201-204 `rewrite-lambda-final` -/
def lambdaFinal (params : List Sym) (body : LStm) : Lam :=
  let (body', cs) := collectCont body []
  ⟨params, body', cs.reverse⟩

/-- lib/toc.cora:207-214 `lambda-frame-size` -/
def frameSize (l : Lam) : Nat :=
  l.conts.foldl (fun acc c => let len := c.live.length + 1; if len > acc then len else acc) (l.params.length + 1)

mutual
/-- lib/toc.cora:218-236 `collect-lambda` and `append-result`. `code` is the list in the vector, first function first
(the code has it the other way round); its length is the counter. -/
def collectSmp : Smp → List Lam → CSmp × List Lam
  | .const d, code => (.const d, code)
  | .global x, code => (.global x, code)
  | .ref r, code => (.ref r, code)
  | .closure ps body frees, code =>
    let (body', code) := collectStm body code
    let cur := code.length
    let lam := lambdaFinal ps body'
    (.closure cur ps.length (frameSize lam) frees, code ++ [lam])
def collectStm : Stm → List Lam → LStm × List Lam
  | .ret e, code =>
    let (e', code) := collectSmp e code
    (.ret e', code)
  | .tail f args, code =>
    let (f', code) := collectSmp f code
    let (args', code) := collectSmps args code
    (.tail f' args', code)
  | .call f args val k live, code =>
    let (f', code) := collectSmp f code
    let (args', code) := collectSmps args code
    let (k', code) := collectStm k code
    (.call f' args' val k' live, code)
  | .bind x e s, code =>
    let (e', code) := collectSmp e code
    let (s', code) := collectStm s code
    (.bind x e' s', code)
  | .prim x p args s, code =>
    let (args', code) := collectSmps args code
    let (s', code) := collectStm s code
    (.prim x p args' s', code)
  | .seq e s, code =>
    let (e', code) := collectSmp e code
    let (s', code) := collectStm s code
    (.seq e' s', code)
  | .ite e a b, code =>
    let (e', code) := collectSmp e code
    let (a', code) := collectStm a code
    let (b', code) := collectStm b code
    (.ite e' a' b', code)
def collectSmps : List Smp → List Lam → List CSmp × List Lam
  | [], code => ([], code)
  | e :: es, code =>
    let (e', code) := collectSmp e code
    let (es', code) := collectSmps es code
    (e' :: es', code)
end

/-- lib/toc.cora:507-515 `collect-lambda-pass`: all functions; the last one is the toplevel -/
def collect (s : Stm) : List Lam :=
  let (s', code) := collectStm s []
  code ++ [lambdaFinal [] s']

/-- lib/toc.cora:495-532 `compile` -/
def compile (e : Core) (k : Nat) : Option (List Lam × Nat) := do
  let (e1, k) ← parse [] e k
  let (s, k) := tailify (conv [] e1) .id k
  some (collect s.liveness, k)

end Cora.Compile
