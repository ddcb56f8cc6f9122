import Verif.Model.CompileMachine
import Verif.Model.Ident
import Verif.Spec.CLang
/-
The code generator of the compiler, /repo/lib/toc.cora:257-606: the text of the C file, as bytes. `none` is an error of the
compiler; it may come after part of the file has been written.

`nm` gives the name of a symbol, as `symbolStr` (src/types.c:170-190) writes it; for symbols made by `gensym` it depends on their
address. `junk` is the contents of fresh memory. The table of symbols is a list of data, because `parse` puts every quoted
datum into it. The literal pieces of the text are those of the code.
-/
open Spec.Lang Spec.C
namespace Cora.Compile

/-- pieces written one after the other -/
def write : List (Option Bytes) → Option Bytes
  | [] => some []
  | p :: ps => do
    let b ← p
    let c ← write ps
    some (b ++ c)

/-- `generate-str` with a literal; lib/toc/internal.c:5-13 -/
def lit (s : String) : Option Bytes := some (txt s)

/-- lib/toc/internal.c:40-46 `generate-num` -/
def genNum (n : Int) : Option Bytes := some (Reader.printInt n)

/-- lib/toc.cora:263-270 `symbol-offset` -/
def symbolOffset (d : Datum) (globals : List Datum) : Int :=
  match globals.findIdx? (· = d) with
  | some i => i
  | none => -1

/-- lib/toc.cora:257-261 `add-symbol-to-list` -/
def addSymbol (d : Datum) (globals : List Datum) : List Datum := if d ∈ globals then globals else d :: globals

mutual
/-- lib/toc.cora:54-85: what `parse` adds to the table of symbols. (Symbols made by `parse` itself are local variables where they
occur; they are left out of `env`.) -/
def globalsOf (env : List Spec.Lang.Sym) : Core → List Datum → List Datum
  | .lit _, gl => gl
  | .quote d, gl => addSymbol d gl
  | .var x, gl => if x ∈ env then gl else addSymbol (.sym x) gl
  | .lam ps b, gl => globalsOf (ps ++ env) b gl
  | .ite a b c, gl =>
    if isIf a then globalsOf env a (globalsOf env c (globalsOf env b gl)) else globalsOf env c (globalsOf env b (globalsOf env a gl))
  | .seq a b, gl => globalsOf env b (globalsOf env a gl)
  | .bind x e b, gl => globalsOf (x :: env) b (globalsOf env e gl)
  | .app f args, gl =>
    match builtin f with
    | some _ => globalsOfList env args gl
    | none => globalsOfList env args (globalsOf env f gl)
def globalsOfList (env : List Spec.Lang.Sym) : List Core → List Datum → List Datum
  | [], gl => gl
  | e :: es, gl => globalsOfList env es (globalsOf env e gl)
end

/-- the bytes of a string -/
def bytesOf (s : String) : Bytes := s.toUTF8.data.toList

/-- what the generator is given besides the program -/
structure Gen where
  nm : Spec.Lang.Sym → Bytes
  junk : Nat → UInt8
  globals : List Datum

variable (g : Gen)

/-- lib/toc/internal.c:15-37 `generate-sym` -/
def genSym (x : Spec.Lang.Sym) : Option Bytes := generateSym (g.nm x)

/-- lib/toc.cora:444-447 `generate-group-name` -/
def genGroup (label : Nat) : Option Bytes := write [lit "clofun", genNum label]

/-- lib/toc.cora:311-326: a constant; there is no clause for pairs -/
def genConst : Datum → Option Bytes
  | .sym x => write [lit "getBinding(co, packageID, ", genNum (symbolOffset (.sym x) g.globals), lit ").name"]
  | .int n => write [lit "MAKE_NUMBER(", genNum n, lit ")"]
  | .str s => write [lit "makeCString(co->gc, \"", constText g.junk (bytesOf s), lit "\")"]
  | .nil => lit "Nil"
  | .bool true => lit "True"
  | .bool false => lit "False"
  | .cons _ _ => none

/-- lib/toc.cora:300, 306-310 -/
def genRef : Ref → Option Bytes
  | .loc x => genSym g x
  | .cap i => write [lit "closureRef(R[0], ", genNum i, lit ")"]

/-- lib/toc.cora:417-432 `generate-inst-list` -/
def genList {α : Type} (f : α → Option Bytes) : List α → Option Bytes
  | [] => some []
  | [a] => f a
  | a :: b :: r => write [f a, lit ", ", genList f (b :: r)]

/-- lib/toc.cora:294-326, 353-367: an operand -/
def genSmp : CSmp → Option Bytes
  | .const d => genConst g d
  | .global x => write [lit "globalRef(co, getBinding(co, packageID, ", genNum (symbolOffset (.sym x) g.globals), lit "))"]
  | .ref r => genRef g r
  | .closure label nargs nframe frees =>
    write [lit "makeNative(co->gc, ", genNum nframe, lit ", ", genGroup label, lit ", ", genNum nargs, lit ", ",
      genNum frees.length, if frees = [] then some [] else write [lit ", ", genList (genRef g) frees], lit ")"]

/-- lib/toc.cora:29-33, 38-42 `builtin->name` -/
def builtinName (p : String) : String :=
  match p with
  | "set" => "primSet" | "car" => "PRIM_CAR" | "cdr" => "PRIM_CDR" | "cons" => "makeCons" | "cons?" => "PRIM_ISCONS"
  | "+" => "PRIM_ADD" | "-" => "PRIM_SUB" | "*" => "PRIM_MUL" | "/" => "primDiv" | "=" => "PRIM_EQ" | ">" => "PRIM_GT"
  | "<" => "PRIM_LT" | "gensym" => "primGenSym" | "symbol?" => "primIsSymbol" | "not" => "primNot"
  | "integer?" => "primIsNumber" | "string?" => "primIsString" | _ => "ERROR"

/-- lib/toc.cora:336-344: a primitive -/
def genPrim (p : String) (args : List CSmp) : Option Bytes :=
  write [lit (builtinName p), lit (if p = "set" then "(co, " else if p = "gensym" then "(co" else if p = "cons" then "(co->gc, " else "("),
    genList (genSmp g) args, lit ")"]

/-- lib/toc.cora:391-415: a call -/
def genCall (f : CSmp) (args : List CSmp) : Option Bytes :=
  if args.length > 4 then
    write [lit "Obj __args[", genNum args.length, lit "] = {", genList (genSmp g) args, lit "};\n", lit "coraCall(co, ", genSmp g f,
      lit ", ", genNum args.length, lit ", __args);\n"]
  else
    write [lit "coraCall", genNum args.length, lit "(co, ", genSmp g f,
      if args.length > 0 then write [lit ", ", genList (genSmp g) args] else some [], lit ");\n"]

/-- lib/toc.cora:272-281 `save-to-frame`; the number is that of the next register -/
def saveToFrame : Nat → List Spec.Lang.Sym → Option Bytes
  | _, [] => some []
  | i, v :: r => write [lit "R[", genNum i, lit "] = ", genSym g v, lit ";\n", saveToFrame (i + 1) r]

/-- lib/toc.cora:283-292 `recover-from-frame` -/
def recoverFromFrame : Nat → List Spec.Lang.Sym → Option Bytes
  | _, [] => some []
  | i, v :: r => write [lit "Obj ", genSym g v, lit " = R[", genNum i, lit "];\n", recoverFromFrame (i + 1) r]

/-- lib/toc.cora:327-390: statements of the function with label `self` -/
def genStm (self : Nat) : CStm → Option Bytes
  | .ret e => write [lit "coraReturn(co, ", genSmp g e, lit ");\n", lit "return;\n"]
  | .tail f args => write [lit "co->ctx.sp = R;\n", genCall g f args, lit "return;\n"]
  | .call f args label live =>
    write [saveToFrame g 1 live, lit "saveCont(co, ", genGroup self, lit ", ", genNum label, lit ", R);\n", genCall g f args,
      lit "return;\n"]
  | .bind x e k => write [lit "Obj ", genSym g x, lit " = ", genSmp g e, lit ";\n", genStm self k]
  | .prim x p args k => write [lit "Obj ", genSym g x, lit " = ", genPrim g p args, lit ";\n", genStm self k]
  | .seq e k => write [genSmp g e, lit ";\n", genStm self k]
  | .ite e a b =>
    write [lit "if (True == ", genSmp g e, lit ") {\n", genStm self a, lit "} else {\n", genStm self b, lit "}\n"]

/-- lib/toc.cora:434-442 `generate-cont` -/
def genCont (self : Nat) (c : Cont) : Option Bytes :=
  write [lit "Obj ", genSym g c.val, lit "= co->res;\n", recoverFromFrame g 1 c.live, genStm g self c.body]

/-- lib/toc.cora:449-454 `code-gen-func-declare` -/
def genDeclare (label : Nat) : Option Bytes :=
  write [lit "static void ", genGroup label, lit "(struct Cora* co, int label, Obj *R", lit ")"]

/-- lib/toc.cora:553-562: the cases of the continuations, the first one with the number `i` -/
def genConts (self : Nat) : Nat → List Cont → Option Bytes
  | _, [] => some []
  | i, c :: r => write [lit "case ", genNum i, lit ":\n{\n", genCont g self c, lit "}\n", genConts self (i + 1) r]

/-- lib/toc.cora:540-566 `generate-toplevel-lambda` -/
def genLambda (label : Nat) (l : Lam) : Option Bytes :=
  write [genDeclare label, lit " {\n", lit " switch (label) {\n", lit "case 0:\n{\n", recoverFromFrame g 1 l.params,
    genStm g label l.body, lit "}\n", genConts g label 1 l.conts, lit "}\n", lit "}\n\n"]

/-- lib/toc.cora:577-583 with src/runtime.c:232-238 `symbol->string`, which fails for what is no symbol and for long names -/
def genTable : Nat → List Datum → Option Bytes
  | _, [] => some []
  | i, .sym x :: r =>
    if (g.nm x).length + 1 < 256 then
      write [lit "__symbolTable[", genNum i, lit "] = bindSymbol(co, intern(\"", some (upToNul (g.nm x)), lit "\"));\n",
        genTable (i + 1) r]
    else none
  | _, _ => none

/-- lib/toc.cora:568-589 `generate-entry` -/
def genEntry (label : Nat) : Option Bytes :=
  write [lit "void entry(struct Cora *co, int label, Obj *R) {\n",
    lit "if (packageID == -1) { packageID = packageIDAlloc(); }\n",
    lit "Binding *__symbolTable = malloc(sizeof(Binding) * ", genNum g.globals.length, lit ");\n",
    genTable g 0 g.globals,
    lit "addPackage(co, packageID, __symbolTable);\n",
    lit "co->ctx.fn = ", genGroup label, lit ";\n", lit "co->ctx.label = 0;\n}\n\n"]

/-- something for every function, the last one first: the compiler has the functions in that order -/
def genAll (f : Nat → Lam → Option Bytes) : List Lam → Option Bytes
  | [] => some []
  | l :: r => write [genAll (fun i => f (i + 1)) r, f 0 l]

/-- lib/toc.cora:591-605 `generate-c`. `caar` fails when there are no functions; there is always the toplevel. -/
def generateC (lams : List Lam) : Option Bytes :=
  if lams = [] then none
  else
    write [lit "#include \"types.h\"\n", lit "#include \"runtime.h\"\n\n", lit "static int packageID = -1;\n",
      genAll (fun label _ => write [genDeclare label, lit ";\n"]) lams, lit "\n\n", genEntry g (lams.length - 1),
      genAll (genLambda g) lams]

end Cora.Compile
