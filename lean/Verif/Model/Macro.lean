import Verif.Spec.Lang
/-
The macro expander and the standard macros: init.cora. Programs are data (`Spec.Lang.Datum`); a number here is an
integer, a string a text. `none` is a trap: an ill-formed use makes the macro take the `car` of something that is no
pair, or call `error`.
-/
open Spec.Lang
namespace Cora.Macro

/-- a computation that can make fresh symbols (`gensym`) and can trap -/
abbrev M (α : Type) := StateT Nat Option α

def car : Datum → Option Datum
  | .cons a _ => some a
  | _ => none

def cdr : Datum → Option Datum
  | .cons _ d => some d
  | _ => none

/-- init.cora:6 -/
def cadr (d : Datum) : Option Datum := (cdr d).bind car
/-- init.cora:9 -/
def cddr (d : Datum) : Option Datum := (cdr d).bind cdr
/-- init.cora:10 -/
def caddr (d : Datum) : Option Datum := (cddr d).bind car
/-- init.cora:12 -/
def cdddr (d : Datum) : Option Datum := (cddr d).bind cdr
/-- init.cora:11 -/
def cadddr (d : Datum) : Option Datum := (cdddr d).bind car

/-- src/runtime.c:931-943 `primGenSym`: a new symbol, different from all others -/
def gensym : M Datum := fun k => some (.sym (.gen k), k + 1)

/-- init.cora:13-19 `rcons` -/
def rcons : Datum → Datum
  | .cons a d => .list [kw "cons", a, rcons d]
  | _ => .nil

/-- init.cora:165-168 `rcons1` -/
def rcons1 : Datum → Option Datum
  | .cons a .nil => some a
  | .cons a d => (rcons1 d).map fun r => .list [kw "cons", a, r]
  | _ => none

/-- init.cora:27-32 `map` with a function that can fail: elements in order, anything after the last pair is dropped -/
def mapM (f : Datum → M Datum) : Datum → M Datum
  | .cons a d => do
    let x ← f a
    let r ← mapM f d
    return .cons x r
  | _ => return .nil

/-- init.cora:21-26 `reverse` -/
def reverseH : Datum → Datum → Datum
  | res, .cons a d => reverseH (.cons a res) d
  | res, _ => res

def reverse (d : Datum) : Datum := reverseH .nil d

/-- init.cora:275-278 `append` -/
def append : Datum → Datum → Option Datum
  | .nil, l => some l
  | .cons a d, l => (append d l).map (.cons a ·)
  | _, _ => none

/-- init.cora:95-101 `defmacro` -/
def defmacroMacro (exp : Datum) : Option Datum := do
  some (.list [kw "cora/init#add-to-*macros*", .list [kw "quote", ← cadr exp],
    .cons (kw "lambda") (.cons (← caddr exp) (← cdddr exp))])

/-- init.cora:104-107 `defun` -/
def defunMacro (exp : Datum) : Option Datum := do
  some (.list [kw "def", ← cadr exp, .list [kw "lambda", ← caddr exp, ← cadddr exp]])

/-- init.cora:118-124 `rewrite-let` -/
def rewriteLet : Datum → Option Datum
  | .cons e .nil => some e
  | .cons x (.cons e rest) => (rewriteLet rest).map fun r => .list [kw "let", x, e, r]
  | _ => none

/-- init.cora:129-135 `cond` -/
def condMacro (exp : Datum) : Option Datum := do
  if (← cdr exp) = .nil then some (.list [kw "error", .str "no cond match"])
  else
    let curr ← cadr exp
    some (.list [kw "if", ← car curr, ← cadr curr, .cons (kw "cond") (← cddr exp)])

/-- init.cora:137-145 `rewrite-or` -/
def rewriteOr : Datum → Option Datum
  | .nil => some (.bool false)
  | .cons a d =>
    if a = .bool true then some (.bool true)
    else
      match rewriteOr d with
      | some more => if more = .bool true then some (.bool true) else some (.list [kw "if", a, .bool true, more])
      | none => none
  | _ => none

/-- init.cora:150-158 `rewrite-and` -/
def rewriteAnd : Datum → Option Datum
  | .nil => some (.bool true)
  | .cons a d =>
    if a = .bool false then some (.bool false)
    else
      match rewriteAnd d with
      | some more => if more = .bool false then some (.bool false) else some (.list [kw "if", a, more, .bool false])
      | none => none
  | _ => none

/-- init.cora:192-201 `match1` with 175-190 `match-cons-expander` -/
def match1 : Datum → Datum → Datum → Datum → Option Datum
  | .sym x, expr, body, _ => some (.list [kw "let", .sym x, expr, body])
  | .cons h t, expr, body, cc =>
    if h = kw "quote" then some (.list [kw "if", .list [kw "=", .cons h t, expr], body, .list [cc]])
    else if h = kw "cons" then
      match t with
      | .cons x (.cons y _) =>
        match expr with
        | .cons (.sym (.named "cons")) rest => do
          let e1 ← car rest
          let e2 ← cadr rest
          match1 x e1 (← match1 y e2 body cc) cc
        | expr => do
          let inner ← match1 y (.list [kw "cdr", expr]) body cc
          let outer ← match1 x (.list [kw "car", expr]) inner cc
          some (.list [kw "if", .list [kw "cons?", expr], outer, .list [cc]])
      | _ => none
    else none
  | lit, expr, body, cc =>
    if lit = expr then some body else some (.list [kw "if", .list [kw "=", lit, expr], body, .list [cc]])

/-- init.cora:203-210 `extract-rule-action` -/
def extractRuleAction (action cc : Datum) : Option Datum :=
  match action with
  | .cons (.sym (.named "where")) r => do some (.list [kw "if", ← car r, ← cadr r, .list [cc]])
  | action => some action

/-- init.cora:212-222 `match-helper` -/
def matchHelper (macroexpand : Datum → M Datum) (value : Datum) : Datum → M Datum
  | .nil => return .list [kw "error", .str "no match-help found!"]
  | .cons pat (.cons act rest) => do
    let cc ← gensym
    let action ← liftM (extractRuleAction act cc)
    let p ← macroexpand pat
    let curr ← liftM (match1 p value action cc)
    let more ← matchHelper macroexpand value rest
    return .list [kw "let", cc, .list [kw "lambda", .nil, more], curr]
  | _ => failure

/-- init.cora:224-231 `rewrite-match` -/
def rewriteMatch (macroexpand : Datum → M Datum) (exp : Datum) : M Datum := do
  let e ← liftM (cadr exp)
  let rules ← liftM (cddr exp)
  let value ← macroexpand e
  match value with
  | .cons h t =>
    if h = kw "cons" then matchHelper macroexpand (.cons h t) rules
    else do
      let val ← gensym
      let r ← matchHelper macroexpand val rules
      return .list [kw "let", val, .cons h t, r]
  | value => matchHelper macroexpand value rules

/-- init.cora:238-247 `extract-rules1` -/
def extractRules1 : Datum → Datum → Datum → Option Datum
  | .nil, _, result => some (reverse result)
  | .cons (.sym (.named "=>")) (.cons act (.cons (.sym (.named "where")) (.cons pred remain))), current, result =>
    extractRules1 remain .nil
      (.cons (.list [kw "where", pred, act]) (.cons (.cons (kw "list") (reverse current)) result))
  | .cons (.sym (.named "=>")) (.cons act remain), current, result =>
    extractRules1 remain .nil (.cons act (.cons (.cons (kw "list") (reverse current)) result))
  | .cons x y, current, result => extractRules1 y (.cons x current) result
  | _, _, _ => none

/-- init.cora:249-250 `extract-rules` -/
def extractRules (input : Datum) : Option Datum := extractRules1 input .nil .nil

/-- init.cora:257-263 `length` -/
def length : Datum → Option Nat
  | .nil => some 0
  | .cons _ d => (length d).map (· + 1)
  | _ => none

/-- init.cora:252-255 `rules-patterns` and 280-288 `rules-arg-count`: the number of arguments of the first rule; all
other rules must have the same -/
def rulesArgCount : Datum → Option Nat
  | .cons pat (.cons _ .nil) => do length (← cdr pat)
  | .cons pat (.cons _ rest) => do
    let n ← length (← cdr pat)
    if (← rulesArgCount rest) = n then some n else none
  | _ => none

/-- init.cora:290-293 `gen-paramenters` -/
def genParameters : Nat → M Datum
  | 0 => return .nil
  | n + 1 => do
    let g ← gensym
    let r ← genParameters n
    return .cons g r

/-- init.cora:295-301 `func` -/
def funcMacro (exp : Datum) : M Datum := do
  let body ← liftM ((cddr exp).bind extractRules)
  let nargs ← liftM (rulesArgCount body)
  let args ← genParameters nargs
  let name ← liftM (cadr exp)
  return .list [kw "defun", name, args, .cons (kw "match") (.cons (.cons (kw "list") args) body)]

/-- init.cora:318-321 `rewrite-begin` -/
def rewriteBegin : Datum → Option Datum
  | .cons x .nil => some x
  | .cons x y => (rewriteBegin y).map fun r => .list [kw "do", x, r]
  | _ => none

mutual
/-- init.cora:326-330 `rewrite-backquote` -/
def rewriteBackquote : Datum → Datum
  | .sym x => .list [kw "quote", .sym x]
  | .cons (.sym (.named "unquote")) (.cons x .nil) => x
  | .cons x more => .cons (kw "list") (.cons (rewriteBackquote x) (rewriteBackquotes more))
  | x => x
/-- the `map` in it -/
def rewriteBackquotes : Datum → Datum
  | .cons x more => .cons (rewriteBackquote x) (rewriteBackquotes more)
  | _ => .nil
end

/-- init.cora:335-338 `rewrite-fold-apply` -/
def rewriteFoldApply (fn : Datum) : Datum → Option Datum
  | .cons a (.cons b .nil) => some (.list [fn, a, b])
  | .cons a (.cons b r) => (rewriteFoldApply fn (.cons b r)).map fun x => .list [fn, a, x]
  | _ => none

/-- init.cora:345-351 `parse-package`: imports (in order), exports (the last list), body -/
def parsePackage : Datum → List Datum → Datum → List Datum × Datum × Datum
  | .cons (.cons (.sym (.named "import")) (.cons lib .nil)) rest, imports, exports =>
    parsePackage rest (imports ++ [lib]) exports
  | .cons (.cons (.sym (.named "export")) more) rest, imports, _ => parsePackage rest imports more
  | body, imports, exports => (imports, exports, body)

/-- init.cora:353-359 `package` -/
def packageMacro (exp : Datum) : Option Datum := do
  let path ← cadr exp
  let (imports, exports, body) := parsePackage (← cddr exp) [] .nil
  let b ← append (.list (imports.map fun i => .list [kw "import", i]))
    (.cons (.list [kw "def", kw "*ns-export*", .list [kw "backquote", exports]]) body)
  some (.list [kw "ns", path, .cons (.str "cora/init") (.list imports), .cons (kw "begin") b])

/-- a macro: it may expand parts of its form itself -/
abbrev MacroFn := (Datum → M Datum) → Datum → M Datum

/-- the macros of init.cora -/
def stdMacro : String → Option MacroFn
  | "defmacro" => some fun _ e => liftM (defmacroMacro e)
  | "list" => some fun _ e => liftM ((cdr e).map rcons)
  | "defun" => some fun _ e => liftM (defunMacro e)
  | "let" => some fun _ e => liftM ((cdr e).bind rewriteLet)
  | "cond" => some fun _ e => liftM (condMacro e)
  | "or" => some fun _ e => liftM ((cdr e).bind rewriteOr)
  | "and" => some fun _ e => liftM ((cdr e).bind rewriteAnd)
  | "list-rest" => some fun _ e => liftM ((cdr e).bind rcons1)
  | "match" => some fun mx e => rewriteMatch mx e
  | "func" => some fun _ e => funcMacro e
  | "begin" => some fun _ e => liftM ((cdr e).bind rewriteBegin)
  | "backquote" => some fun _ e => liftM ((cadr e).map rewriteBackquote)
  | "fold-apply" => some fun _ e => liftM do rewriteFoldApply (← cadr e) (← cddr e)
  | "package" => some fun _ e => liftM (packageMacro e)
  | _ => none

/-! ### namespaces -/

/-- what the expander sees of the outside: the export list of a package (`value-or` of `<package>#*ns-export*`) -/
abbrev Exports := String → List Sym

/-- the text of a symbol (src/types.c:170-186): that of a generated one starts with `#` -/
def symbolText : Sym → String
  | .named s => s
  | .gen n => "#" ++ toString n

/-- src/runtime.c:648-660 `symbol-cooked?` -/
def symbolCooked (x : Sym) : Bool := (symbolText x).toList.any (· == '#')

/-- init.cora:361-365 `var-with-ns` -/
def varWithNs (x : Sym) (ns : String) : Sym :=
  if ns = "" then x else if symbolCooked x then x else .named (ns ++ ("#" ++ symbolText x))

/-- init.cora:367-372 `lookup-var` -/
def lookupVar (ex : Exports) (x : Sym) (ns : String) : List String → Sym
  | [] => varWithNs x ns
  | i :: more => if x ∈ ex i then .named (i ++ ("#" ++ symbolText x)) else lookupVar ex x ns more

/-- init.cora:385-386 `builtin?` -/
def isBuiltin : Sym → Bool
  | .named s => (primArity s).isSome
  | .gen _ => false

/-- the elements of a list of symbols -/
def symbols : Datum → Option (List Sym)
  | .nil => some []
  | .cons (.sym x) d => (symbols d).map (x :: ·)
  | _ => none

/-- the elements of a list of strings -/
def strings : Datum → Option (List String)
  | .nil => some []
  | .cons (.str x) d => (strings d).map (x :: ·)
  | _ => none

mutual
/-- init.cora:388-404 `parse`: parameters must be symbols and imports strings (the code allows more) -/
def nsParse (ex : Exports) : List Sym → String → List String → Datum → Option Datum
  | env, ns, imp, .sym x =>
    some (.sym (if x ∈ env then x else if isBuiltin x then x else lookupVar ex x ns imp))
  | _, _, _, .cons (.sym (.named "quote")) (.cons x .nil) => some (.list [kw "quote", x])
  | env, ns, imp, .cons (.sym (.named "lambda")) (.cons args (.cons body .nil)) => do
    some (.list [kw "lambda", args, ← nsParse ex ((← symbols args) ++ env) ns imp body])
  | env, ns, imp, .cons (.sym (.named "do")) (.cons (.cons (.sym (.named "import")) (.cons (.str pkg) .nil)) (.cons y .nil)) => do
    some (.list [kw "do", .list [.sym (if Sym.named "import" ∈ env then .named "import" else lookupVar ex (.named "import") ns imp),
      .str pkg], ← nsParse ex env ns (pkg :: imp) y])
  | env, ns, imp, .cons (.sym (.named "if")) args => do some (.cons (kw "if") (← nsParses ex env ns imp args))
  | env, ns, imp, .cons (.sym (.named "do")) args => do some (.cons (kw "do") (← nsParses ex env ns imp args))
  | env, ns, imp, .cons (.sym (.named "let")) (.cons (.sym a) (.cons b (.cons c .nil))) => do
    some (.list [kw "let", .sym a, ← nsParse ex env ns imp b, ← nsParse ex (a :: env) ns imp c])
  | env, _, _, .cons (.sym (.named "ns")) (.cons (.str path) (.cons imp (.cons body .nil))) => do
    nsParse ex env path (← strings imp) body
  | env, ns, imp, .cons (.sym (.named "def")) (.cons (.sym x) (.cons val .nil)) => do
    some (.list [kw "set", .list [kw "quote", .sym (varWithNs x ns)], ← nsParse ex env ns imp val])
  | env, ns, imp, .cons f args => do
    some (.cons (← nsParse ex env ns imp f) (← nsParses ex env ns imp args))
  | _, _, _, x => some x
/-- `map` of it -/
def nsParses (ex : Exports) : List Sym → String → List String → Datum → Option Datum
  | env, ns, imp, .cons x r => do some (.cons (← nsParse ex env ns imp x) (← nsParses ex env ns imp r))
  | _, _, _, _ => some .nil
end

/-! ### expansion -/

/-- all macros known: those of init.cora and of the program; `protect` is the value of `*protect-symbol*` -/
structure Macros where
  fn : Sym → Option MacroFn
  protect : Sym
  ex : Exports

mutual
/-- init.cora:74-88 `macroexpand-boot` with 46-62 `macroexpand1`. The first argument bounds the work; `none` also means
that it is exceeded. -/
def expandBoot (mt : Macros) : Nat → Datum → M Datum
  | 0, _ => failure
  | n + 1, .cons h t =>
    if h = .sym mt.protect then return t
    else if h = kw "lambda" then do
      let ps ← liftM (car t)
      let b ← liftM (cadr t)
      let b' ← expandBoot mt n b
      return .list [kw "lambda", ps, b']
    else if h = kw "quote" then return .cons h t
    else do
      let exp1 ← match h with
        | .sym x =>
          match mt.fn x with
          | some f => f (macroexpand mt n) (.cons h t)
          | none => pure (.cons h t)
        | _ => pure (.cons h t)
      if exp1 = .cons h t then mapM (expandBoot mt n) exp1 else expandBoot mt n exp1
  | _ + 1, x => return x
/-- init.cora:309-312 `macroexpand`; `cora/init#peval` is the identity (306-307) unless `cora/lib/peval` is loaded -/
def macroexpand (mt : Macros) : Nat → Datum → M Datum
  | 0, _ => failure
  | n + 1, e => do
    let e1 ← expandBoot mt n e
    liftM (nsParse mt.ex [] "" [] e1)
end

end Cora.Macro
