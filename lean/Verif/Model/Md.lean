import Verif.Spec.Markdown
/-
Model of /repo/lib/md4c/wrap.c: the callbacks that turn what the Markdown parser reports into data. The parser itself
(lib/md4c/md4c.c, a copy of another project) is not modelled: the callbacks are run on any sequence of reports. Spans for
underlining, formulas and wiki links are left out: the parser is not told to look for them (wrap.c:638-640). The variable
`curr` and the stack are kept in global variables of the machine; here they are fields. `none`: an assertion fails, or an
access outside the stack. The parts of the stack that were never written are `()`. Sizes are not bounded here.
-/
open Spec Spec.Md
namespace Cora.Md

/-- wrap.c:10-17 `MD_HTML` -/
structure St where
  curr : Sexp
  stack : List Sexp
  size : Nat
  cap : Nat

/-- wrap.c:19-40 `md_html_push` -/
def push (r : St) : Option St :=
  let r := if r.size ≥ r.cap then
      let cap := if r.cap = 0 then 16 else r.cap * 2
      { r with cap := cap, stack := r.stack.take r.size ++ List.replicate (cap - (r.stack.take r.size).length) .nil }
    else r
  if r.size < r.stack.length then some { r with stack := r.stack.set r.size r.curr, size := r.size + 1 } else none

/-- wrap.c:42-46 `md_html_pop` -/
def pop (r : St) : Option (Sexp × St) :=
  if r.size = 0 then none
  else (r.stack[r.size - 1]?).map fun x => (x, { r with size := r.size - 1 })

/-- wrap.c:48-52 `append_curr` -/
def appendCurr (r : St) (x : Sexp) : St := { r with curr := .cons x r.curr }

/-- src/reader.c:75-83 `reverse`. Anything but a proper list traps in `car`. -/
def reverseH : Sexp → Sexp → Option Sexp
  | .nil, ret => some ret
  | .cons a d, ret => reverseH d (.cons a ret)
  | _, _ => none

def reverse (o : Sexp) : Option Sexp := reverseH o .nil

/-- `intern` of a constant -/
def sym (s : String) : Sexp := .sym (ascii s)

/-- `coraMakeCString` of a constant -/
def str (s : String) : Sexp := .str (ascii s)

/-- wrap.c:54-58 `render_verbatim_enter` -/
def enter (r : St) (tag : String) : Option St := do
  let r ← push r
  some { r with curr := .cons (sym tag) .nil }

/-- wrap.c:60-65 `render_verbatim_leave` -/
def leave (r : St) : Option St := do
  let tmp ← reverse r.curr
  let (old, r) ← pop r
  some { r with curr := .cons tmp old }

/-- wrap.c:75-95 `render_attribute`: the pieces, each given to `fn`. The offset behind the last piece is the size. -/
def renderAttribute (fn : List UInt8 → Sexp) (text : List UInt8) (size : Nat) : List Nat → St → Option St
  | o :: o2 :: cuts, r =>
    if o < size then renderAttribute fn text size (o2 :: cuts) (appendCurr r (fn ((text.drop o).take (o2 - o)))) else some r
  | [o], r => if o < size then none else some r
  | [], _ => none

/-- wrap.c:67-73 `render_append_text1` -/
def language (data : List UInt8) : Sexp := .str (ascii "language-" ++ data)

/-- wrap.c:281-284 `render_url_escaped1` -/
def url (data : List UInt8) : Sexp := .str data

/-- an attribute rendered into a list that starts with its name: wrap.c:152-154, 330-332, 336-338, 351-353 -/
def attrList (name : String) (fn : List UInt8 → Sexp) (a : Attr) (r : St) : Option (Sexp × St) := do
  let r ← renderAttribute fn a.text a.text.length a.cuts { r with curr := .cons (sym name) .nil }
  some (← reverse r.curr, r)

/-- wrap.c:96-124 `render_open_li_block` -/
def openLi (r : St) : Option UInt8 → Option St
  | none => enter r "li"
  | some mark => do
    let r ← push r
    let tmp := Sexp.cons (sym "class") (.cons (str "task-list-item") .nil)
    let attrs := Sexp.cons (sym "@") (.cons tmp .nil)
    let r := { r with curr := .cons attrs (.cons (sym "li") .nil) }
    let tmp1 := Sexp.cons (sym "type") (.cons (str "checkbox") .nil)
    let tmp2 := Sexp.cons (sym "class") (.cons (str "task-list-item-checkbox") .nil)
    let tail := if mark = 120 ∨ mark = 88 then Sexp.cons (sym "checked") .nil else .nil
    let tail := Sexp.cons (sym "disabled") tail
    let attrs := Sexp.cons (sym "@") (.cons tmp1 (.cons tmp2 tail))
    some (appendCurr r (.cons (sym "input") (.cons attrs .nil)))

/-- wrap.c:126-140 `render_open_ol_block` -/
def openOl (r : St) (start : Nat) : Option St := do
  let r ← enter r "ol"
  if start = 1 then some r
  else
    let tmp := Sexp.cons (sym "start") (.cons (.int start) .nil)
    some (appendCurr r (.cons (sym "@") (.cons tmp .nil)))

/-- wrap.c:142-162 `render_open_code_block` -/
def openCode (r : St) (lang : Option Attr) : Option St := do
  let r ← push r
  let r := { r with curr := .cons (sym "pre") .nil }
  let r ← push r
  match lang with
  | none => some { r with curr := .cons (sym "code") .nil }
  | some l =>
    let attrs := Sexp.cons (sym "@") (.cons .nil .nil)
    let (tmp, r) ← attrList "class" language l r
    let attrs := Sexp.cons tmp attrs
    let r := { r with curr := .cons (sym "code") .nil }
    some (appendCurr r attrs)

/-- wrap.c:164-219 `enter_block_callback` -/
def enterBlock (r : St) : Block → Option St
  | .doc => some r
  | .quote => enter r "blockquote"
  | .ul => enter r "ul"
  | .ol n => openOl r n
  | .li t => openLi r t
  | .h n => enter r (["h1", "h2", "h3", "h4", "h5", "h6"].get n)
  | .code l => openCode r l
  | .html => some r
  | .p => enter r "p"
  | .table => enter r "table"
  | .thead => enter r "thead"
  | .tbody => enter r "tbody"
  | .tr => enter r "tr"
  | .th => none
  | .td => none

/-- wrap.c:221-279 `leave_block_callback` -/
def leaveBlock (r : St) : Block → Option St
  | .doc => some r
  | .html => some r
  | .code _ => do leave (← leave r)
  | _ => leave r

/-- wrap.c:324-345 `render_open_a_span` -/
def openA (r : St) (href : Attr) (title : Option Attr) : Option St := do
  let r ← push r
  let attrs := Sexp.cons (sym "@") .nil
  let (tmp, r) ← attrList "href" url href r
  let attrs := Sexp.cons tmp attrs
  let (attrs, r) ← match title with
    | none => some (attrs, r)
    | some t => do
      let (tmp1, r) ← attrList "title" url t r
      some (Sexp.cons tmp1 attrs, r)
  let attrs ← reverse attrs
  some { r with curr := .cons attrs (.cons (sym "a") .nil) }

/-- wrap.c:347-356 `render_open_img_span` -/
def openImg (r : St) (src : Attr) : Option St := do
  let r ← push r
  let (tmp, r) ← attrList "src" url src r
  let attrs := Sexp.cons (sym "@") (.cons tmp .nil)
  some { r with curr := .cons attrs (.cons (sym "img") .nil) }

/-- wrap.c:368-426 `enter_span_callback` -/
def enterSpan (r : St) : Span → Option St
  | .em => enter r "em"
  | .strong => enter r "strong"
  | .a href title => openA r href title
  | .img src _ => openImg r src
  | .code => enter r "code"
  | .del => enter r "del"

/-- wrap.c:428-469 `leave_span_callback`, with 358-366 `render_close_img_span` (the title of an image is not used) -/
def leaveSpan (r : St) : Span → Option St
  | _ => leave r

/-- what the parser reports -/
inductive Event where
  | enterBlock (b : Block)
  | leaveBlock (b : Block)
  | enterSpan (s : Span)
  | leaveSpan (s : Span)
  | text (s : List UInt8)
  | br
  | html (s : List UInt8)
  | enterHr
  | leaveHr

/-- one report: the callbacks, with wrap.c:185-187 and 243-244 for a rule and wrap.c:471-493 `text_callback` for text -/
def step (r : St) : Event → Option St
  | .enterBlock b => enterBlock r b
  | .leaveBlock b => leaveBlock r b
  | .enterSpan s => enterSpan r s
  | .leaveSpan s => leaveSpan r s
  | .text s => some (appendCurr r (.str s))
  | .br => some (appendCurr r (.cons (sym "br") .nil))
  | .html _ => some r
  | .enterHr => some (appendCurr r (.cons (sym "hr") .nil))
  | .leaveHr => some r

def steps : List Event → St → Option St
  | [], r => some r
  | e :: es, r => do steps es (← step r e)

/-- wrap.c:502-540 `md_sxml`, for a parser that makes the reports `es` -/
def mdSxml (es : List Event) : Option Sexp := do
  let r ← steps es ⟨.nil, [], 0, 0⟩
  reverse r.curr

mutual
/-- what the parser reports for a document: blocks and spans are entered, then what is in them is reported, then they are left
(lib/md4c/md4c.h, the description of the callbacks) -/
def events : Node → List Event
  | .text s => [.text s]
  | .br => [.br]
  | .html s => [.html s]
  | .hr => [.enterHr, .leaveHr]
  | .block b cs => .enterBlock b :: (eventsL cs ++ [.leaveBlock b])
  | .span s cs => .enterSpan s :: (eventsL cs ++ [.leaveSpan s])
def eventsL : List Node → List Event
  | [] => []
  | n :: r => events n ++ eventsL r
end

end Cora.Md
