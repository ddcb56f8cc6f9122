import Verif.Spec.CText
/-
A small part of C: the tokens of a source text, the programs they stand for, and which declarations are allowed. Written from the
language's description: tokens are taken as long as possible, a string literal is read with its escapes, lines that start with
`#` are left to the preprocessor, keywords are no identifiers, a name is declared once in a block and is in scope from its own
initializer on. Left out: comments, character constants, octal and hexadecimal escapes, more than one binary operator in an
expression without parentheses, and all types but those named below.
-/
namespace Spec.C

abbrev Bytes := List UInt8

/-- an ASCII text -/
def txt (s : String) : Bytes := s.toList.map fun c => UInt8.ofNat c.toNat

/-! ### tokens -/

inductive Tok where
  | id (x : Bytes)
  | num (n : Nat)
  | str (b : Bytes)
  | sym (c : UInt8)
  | arrow
  | eqeq
  deriving DecidableEq

def isLetter (c : UInt8) : Bool := (97 ≤ c && c ≤ 122) || (65 ≤ c && c ≤ 90) || c == 95
def isDigit (c : UInt8) : Bool := 48 ≤ c && c ≤ 57
def isIdChar (c : UInt8) : Bool := isLetter c || isDigit c
/-- `( ) { } [ ] ; , . * :` -/
def isPunct (c : UInt8) : Bool :=
  c == 40 || c == 41 || c == 123 || c == 125 || c == 91 || c == 93 || c == 59 || c == 44 || c == 46 || c == 42 || c == 58

/-- where the scanner is: between tokens, or inside one (what was read of it, last character first) -/
inductive At where
  | start
  | id (x : Bytes)
  | num (n : Nat)
  | str (b : Bytes)
  | esc (b : Bytes)
  | minus
  | eq
  | line
  deriving DecidableEq

/-- the first character of a token; `acc`: the tokens before, last one first -/
def first (acc : List Tok) (c : UInt8) : Option (At × List Tok) :=
  if c == 32 || c == 10 then some (.start, acc)
  else if isLetter c then some (.id [c], acc)
  else if isDigit c then some (.num (c.toNat - 48), acc)
  else if isPunct c then some (.start, .sym c :: acc)
  else if c == 34 then some (.str [], acc)
  else if c == 45 then some (.minus, acc)
  else if c == 61 then some (.eq, acc)
  else if c == 35 then some (.line, acc)
  else none

def next (s : At) (acc : List Tok) (c : UInt8) : Option (At × List Tok) :=
  match s with
  | .start => first acc c
  | .id x => if isIdChar c then some (.id (c :: x), acc) else first (.id x.reverse :: acc) c
  | .num n =>
    if isDigit c then some (.num (n * 10 + (c.toNat - 48)), acc)
    else if isLetter c then none
    else first (.num n :: acc) c
  | .str b =>
    if c == 34 then some (.start, .str b.reverse :: acc)
    else if c == 92 then some (.esc b, acc)
    else if c == 10 then none
    else some (.str (c :: b), acc)
  | .esc b => (Spec.simpleEscape c).map fun d => (.str (d :: b), acc)
  | .minus => if c == 62 then some (.start, .arrow :: acc) else first (.sym 45 :: acc) c
  | .eq => if c == 61 then some (.start, .eqeq :: acc) else first (.sym 61 :: acc) c
  | .line => some (if c == 10 then .start else .line, acc)

def scan : At → List Tok → Bytes → Option (List Tok)
  | .start, acc, [] => some acc.reverse
  | .line, acc, [] => some acc.reverse
  | _, _, [] => none
  | s, acc, c :: r =>
    match next s acc c with
    | some (s, acc) => scan s acc r
    | none => none

/-- the tokens of a text (which ends between two tokens) -/
def tokens (b : Bytes) : Option (List Tok) := scan .start [] b

/-! ### programs -/

/-- expressions: `x`, `n`, `-n`, a string, `f(…)`, `x[e]`, `x->f`, `e.f`, `e * e`, `e == e` -/
inductive Expr where
  | id (x : Bytes)
  | num (n : Nat)
  | neg (n : Nat)
  | str (b : Bytes)
  | call (f : Bytes) (args : List Expr)
  | index (x : Bytes) (i : Expr)
  | arrow (x : Bytes) (f : Bytes)
  | dot (e : Expr) (f : Bytes)
  | mul (a b : Expr)
  | eq (a b : Expr)

/-- statements, one after the other:
`T x = e;`, `T *x = e;`, `T x[n] = { … };`, `l = e;`, `e;`, `if (e) { … } else { … }`, `if (e) { … }`, `return;` -/
inductive Block where
  | done
  | decl (type x : Bytes) (e : Expr) (rest : Block)
  | ptr (type x : Bytes) (e : Expr) (rest : Block)
  | array (type x : Bytes) (n : Nat) (es : List Expr) (rest : Block)
  | assign (l e : Expr) (rest : Block)
  | expr (e : Expr) (rest : Block)
  | ite (e : Expr) (a b : Block) (rest : Block)
  | only (e : Expr) (a : Block) (rest : Block)
  | ret (rest : Block)

/-- the body of a function: statements, or `switch (e) { case n: { … } … }` -/
inductive Body where
  | plain (b : Block)
  | switch (e : Expr) (cases : List (Nat × Block))

/-- `static int x = e;`, `static void f(…);`, `[static] void f(…) { … }`, with the parameters `struct Cora *co, int label, Obj *R` -/
inductive Item where
  | var (x : Bytes) (e : Expr)
  | proto (f : Bytes)
  | func (isStatic : Bool) (f : Bytes) (body : Body)

/-- the words that C reserves -/
def keywords : List Bytes :=
  ["auto", "break", "case", "char", "const", "continue", "default", "do", "double", "else", "enum", "extern", "float", "for",
    "goto", "if", "inline", "int", "long", "register", "restrict", "return", "short", "signed", "sizeof", "static", "struct",
    "switch", "typedef", "union", "unsigned", "void", "volatile", "while", "_Bool", "_Complex", "_Imaginary"].map txt

/-- the names of types that the header files define -/
def typeNames : List Bytes := ["Obj", "Binding"].map txt

/-- may it be the name of a variable or function? (`sizeof` is treated as a function here) -/
def isName (x : Bytes) : Bool := !(keywords.contains x) && !(typeNames.contains x)

/-- `.f.g…` behind an expression -/
def dots : Expr → List Tok → Expr × List Tok
  | e, .sym 46 :: .id f :: r => dots (.dot e f) r
  | e, ts => (e, ts)

/-- may it stand where an operand starts? (`sizeof` and, as its argument, the name of a type) -/
def isOperand (x : Bytes) : Bool := isName x || x == txt "sizeof" || typeNames.contains x

/-- take this token -/
def expect (t : Tok) : List Tok → Option (List Tok)
  | u :: r => if u = t then some r else none
  | [] => none

mutual
/-- an operand: a name with what follows it, a number or a string -/
def operand : Nat → List Tok → Option (Expr × List Tok)
  | 0, _ => none
  | n + 1, .id x :: r =>
    if !isOperand x then none
    else if r.head? = some (.sym 40) then do
      let (args, r) ← list n 41 r.tail
      some (dots (.call x args) r)
    else if r.head? = some (.sym 91) then do
      let (i, r) ← expr n r.tail
      let r ← expect (.sym 93) r
      some (dots (.index x i) r)
    else if r.head? = some .arrow then
      match r.tail with
      | .id f :: r => some (dots (.arrow x f) r)
      | _ => none
    else some (dots (.id x) r)
  | _ + 1, .num k :: r => some (.num k, r)
  | _ + 1, .str b :: r => some (.str b, r)
  | _ + 1, .sym c :: .num k :: r => if c = 45 then some (.neg k, r) else none
  | _ + 1, _ => none
/-- an expression -/
def expr : Nat → List Tok → Option (Expr × List Tok)
  | 0, _ => none
  | n + 1, ts => do
    let (a, r) ← operand n ts
    if r.head? = some (.sym 42) then do
      let (b, r) ← operand n r.tail
      some (.mul a b, r)
    else if r.head? = some .eqeq then do
      let (b, r) ← operand n r.tail
      some (.eq a b, r)
    else some (a, r)
/-- expressions with commas between them up to the closing token `c` -/
def list : Nat → UInt8 → List Tok → Option (List Expr × List Tok)
  | 0, _, _ => none
  | n + 1, c, ts =>
    if ts.head? = some (.sym c) then some ([], ts.tail)
    else do
      let (e, r) ← expr n ts
      if r.head? = some (.sym c) then some ([e], r.tail)
      else do
        let r ← expect (.sym 44) r
        if r.head? = some (.sym c) then none
        else do
          let (es, r) ← list n c r
          some (e :: es, r)
end

/-- an expression and then this token -/
def exprThen (n : Nat) (t : Tok) (ts : List Tok) : Option (Expr × List Tok) := do
  let (e, r) ← expr n ts
  let r ← expect t r
  some (e, r)

/-- a declaration without its type `t`: `x = e;`, `*x = e;` or `x[m] = { … };` -/
def declaration (n : Nat) (t : Bytes) : List Tok → Option ((Block → Block) × List Tok)
  | .sym c :: .id x :: r =>
    if c = 42 && isName x then do
      let r ← expect (.sym 61) r
      let (e, r) ← exprThen n (.sym 59) r
      some (.ptr t x e, r)
    else none
  | .id x :: r =>
    if !isName x then none
    else if r.head? = some (.sym 91) then
      match r.tail with
      | .num m :: r => do
        let r ← expect (.sym 93) r
        let r ← expect (.sym 61) r
        let r ← expect (.sym 123) r
        let (es, r) ← list n 125 r
        let r ← expect (.sym 59) r
        some (.array t x m es, r)
      | _ => none
    else do
      let r ← expect (.sym 61) r
      let (e, r) ← exprThen n (.sym 59) r
      some (.decl t x e, r)
  | _ => none

/-- `l = e;` or `e;` -/
def simple (n : Nat) (ts : List Tok) : Option ((Block → Block) × List Tok) := do
  let (l, r) ← expr n ts
  if r.head? = some (.sym 61) then do
    let (e, r) ← exprThen n (.sym 59) r.tail
    some (.assign l e, r)
  else do
    let r ← expect (.sym 59) r
    some (.expr l, r)

/-- statements up to the closing brace. The number bounds the depth of recursion; `parse` gives one that is large enough for
every text. -/
def block : Nat → List Tok → Option (Block × List Tok)
  | 0, _ => none
  | _ + 1, [] => none
  | n + 1, t :: r =>
    if t = .sym 125 then some (.done, r)
    else if t = .id (txt "if") then do
      let r ← expect (.sym 40) r
      let (e, r) ← exprThen n (.sym 41) r
      let r ← expect (.sym 123) r
      let (a, r) ← block n r
      if r.head? = some (.id (txt "else")) then do
        let r ← expect (.sym 123) r.tail
        let (b, r) ← block n r
        let (k, r) ← block n r
        some (.ite e a b k, r)
      else do
        let (k, r) ← block n r
        some (.only e a k, r)
    else if t = .id (txt "return") then do
      let r ← expect (.sym 59) r
      let (k, r) ← block n r
      some (.ret k, r)
    else
      match t with
      | .id x =>
        if typeNames.contains x then do
          let (f, r) ← declaration n x r
          let (k, r) ← block n r
          some (f k, r)
        else do
          let (f, r) ← simple n (t :: r)
          let (k, r) ← block n r
          some (f k, r)
      | _ => none

/-- `case m: { … } …` up to the closing brace -/
def cases : Nat → List Tok → Option (List (Nat × Block) × List Tok)
  | 0, _ => none
  | n + 1, ts =>
    if ts.head? = some (.sym 125) then some ([], ts.tail)
    else do
      let r ← expect (.id (txt "case")) ts
      match r with
      | .num m :: r => do
        let r ← expect (.sym 58) r
        let r ← expect (.sym 123) r
        let (b, r) ← block n r
        let (cs, r) ← cases n r
        some ((m, b) :: cs, r)
      | _ => none

/-- tokens of the parameters -/
def params : List Tok :=
  [.sym 40, .id (txt "struct"), .id (txt "Cora"), .sym 42, .id (txt "co"), .sym 44, .id (txt "int"), .id (txt "label"), .sym 44,
    .id (txt "Obj"), .sym 42, .id (txt "R"), .sym 41]

/-- take these tokens -/
def expects : List Tok → List Tok → Option (List Tok)
  | [], r => some r
  | t :: ts, r => do expects ts (← expect t r)

/-- the body of a function behind its opening brace -/
def body (n : Nat) (ts : List Tok) : Option (Body × List Tok) :=
  if ts.head? = some (.id (txt "switch")) then do
    let r ← expect (.sym 40) ts.tail
    let (e, r) ← exprThen n (.sym 41) r
    let r ← expect (.sym 123) r
    let (cs, r) ← cases n r
    let r ← expect (.sym 125) r
    some (.switch e cs, r)
  else do
    let (b, r) ← block n ts
    some (.plain b, r)

/-- a function or its declaration, behind `void` -/
def func (n : Nat) (isStatic : Bool) : List Tok → Option (Item × List Tok)
  | .id f :: r =>
    if !isName f then none
    else do
      let r ← expects params r
      if r.head? = some (.sym 59) then some (.proto f, r.tail)
      else do
        let r ← expect (.sym 123) r
        let (b, r) ← body n r
        some (.func isStatic f b, r)
  | _ => none

/-- the declarations of a file -/
def items : Nat → List Tok → Option (List Item)
  | 0, _ => none
  | _ + 1, [] => some []
  | n + 1, t :: r =>
    if t = .id (txt "void") then do
      let (i, r) ← func n false r
      let is ← items n r
      some (i :: is)
    else do
      let r ← expect (.id (txt "static")) (t :: r)
      if r.head? = some (.id (txt "void")) then do
        let (i, r) ← func n true r.tail
        let is ← items n r
        some (i :: is)
      else do
        let r ← expect (.id (txt "int")) r
        match r with
        | .id x :: r =>
          if isName x then do
            let r ← expect (.sym 61) r
            let (e, r) ← exprThen n (.sym 59) r
            let is ← items n r
            some (.var x e :: is)
          else none
        | _ => none

/-- the program a text stands for, if it is one -/
def parse (b : Bytes) : Option (List Item) := do
  let ts ← tokens b
  items (4 * ts.length + 4) ts

/-! ### declarations -/

mutual
/-- every name is declared; `fs`: the functions and constants, `vs`: the variables -/
def Expr.ok (fs vs : List Bytes) : Expr → Bool
  | .id x => vs.contains x || fs.contains x
  | .num _ => true
  | .neg _ => true
  | .str _ => true
  | .call f args => fs.contains f && !vs.contains f && Expr.oks fs vs args
  | .index x i => vs.contains x && Expr.ok fs vs i
  | .arrow x _ => vs.contains x
  | .dot e _ => Expr.ok fs vs e
  | .mul a b => Expr.ok fs vs a && Expr.ok fs vs b
  | .eq a b => Expr.ok fs vs a && Expr.ok fs vs b
def Expr.oks (fs vs : List Bytes) : List Expr → Bool
  | [] => true
  | e :: es => Expr.ok fs vs e && Expr.oks fs vs es
end

/-- every name is declared before it is used and no name is declared twice in a block; `vs`: the variables of the blocks around,
`here`: those of this block -/
def Block.ok (fs vs here : List Bytes) : Block → Bool
  | .done => true
  | .decl _ x e k => !here.contains x && Expr.ok fs (x :: here ++ vs) e && Block.ok fs vs (x :: here) k
  | .ptr _ x e k => !here.contains x && Expr.ok fs (x :: here ++ vs) e && Block.ok fs vs (x :: here) k
  | .array _ x n es k =>
    !here.contains x && Expr.oks fs (x :: here ++ vs) es && decide (es.length ≤ n) && Block.ok fs vs (x :: here) k
  | .assign l e k => Expr.ok fs (here ++ vs) l && Expr.ok fs (here ++ vs) e && Block.ok fs vs here k
  | .expr e k => Expr.ok fs (here ++ vs) e && Block.ok fs vs here k
  | .ite e a b k =>
    Expr.ok fs (here ++ vs) e && Block.ok fs (here ++ vs) [] a && Block.ok fs (here ++ vs) [] b && Block.ok fs vs here k
  | .only e a k => Expr.ok fs (here ++ vs) e && Block.ok fs (here ++ vs) [] a && Block.ok fs vs here k
  | .ret k => Block.ok fs vs here k

/-- the parameters -/
def paramNames : List Bytes := ["co", "label", "R"].map txt

def Body.ok (fs : List Bytes) : Body → Bool
  | .plain b => Block.ok fs [] paramNames b
  | .switch e cs =>
    Expr.ok fs paramNames e && cs.all (fun c => Block.ok fs paramNames [] c.2) && decide (cs.map (·.1)).Nodup

/-- the names that a declaration declares -/
def Item.name : Item → Bytes
  | .var x _ => x
  | .proto f => f
  | .func _ f _ => f

/-- a file: every name is declared before it is used; `fs`: what is declared by the header files and before -/
def okFile (fs : List Bytes) : List Item → Bool
  | [] => true
  | i :: is =>
    (match i with
      | .var _ e => Expr.ok fs [] e
      | .proto _ => true
      | .func _ f b => Body.ok (f :: fs) b) && okFile (i.name :: fs) is

/-- the name that an item defines -/
def Item.defines : Item → Option Bytes
  | .var x _ => some x
  | .proto _ => none
  | .func _ f _ => some f

/-- a file that a compiler accepts: it has the right form, every name is declared and nothing is defined twice; `fs`: what the
header files declare. (Types and the numbers of arguments are not looked at.) -/
def valid (fs : List Bytes) (is : List Item) : Bool := okFile fs is && decide (is.filterMap Item.defines).Nodup

end Spec.C
