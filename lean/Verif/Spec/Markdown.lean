import Verif.Spec.Xml
/-
A Markdown document as the parser sees it, and the XML it stands for.
-/
namespace Spec.Md
open Spec

/-- an attribute: its text, and where the parser cut it (it cuts at entities and NUL bytes): the offset of each piece and at
the end the length of the text -/
structure Attr where
  text : List UInt8
  cuts : List Nat

/-- blocks. `task`: the mark between the brackets of a task list item. -/
inductive Block where
  | doc | quote | ul
  | ol (start : Nat)
  | li (task : Option UInt8)
  | h (level : Fin 6)
  | code (lang : Option Attr)
  | html | p | table | thead | tbody | tr | th | td

/-- spans -/
inductive Span where
  | em | strong
  | a (href : Attr) (title : Option Attr)
  | img (src : Attr) (title : Option Attr)
  | code | del

/-- a document: blocks and spans around text, line breaks, rules and pieces of HTML -/
inductive Node where
  | text (s : List UInt8)
  | br
  | html (s : List UInt8)
  | hr
  | block (b : Block) (cs : List Node)
  | span (s : Span) (cs : List Node)

def attr (name : String) (a : Attr) : XmlAttr := .text (ascii name) a.text

/-- the check box of a task list item -/
def checkbox (mark : UInt8) : XmlNode :=
  .elem (ascii "input") ([.text (ascii "type") (ascii "checkbox"), .text (ascii "class") (ascii "task-list-item-checkbox"),
    .flag (ascii "disabled")] ++ if mark = 120 ∨ mark = 88 then [.flag (ascii "checked")] else []) []

/-- the element of a block -/
def Block.xml (b : Block) (body : List XmlNode) : List XmlNode :=
  let elem (t : String) := [XmlNode.elem (ascii t) [] body]
  match b with
  | .doc => body
  | .quote => elem "blockquote"
  | .ul => elem "ul"
  | .ol n => [.elem (ascii "ol") (if n = 1 then [] else [.num (ascii "start") n]) body]
  | .li none => elem "li"
  | .li (some m) => [.elem (ascii "li") [.text (ascii "class") (ascii "task-list-item")] (checkbox m :: body)]
  | .h n => elem (["h1", "h2", "h3", "h4", "h5", "h6"].get n)
  | .code none => [.elem (ascii "pre") [] [.elem (ascii "code") [] body]]
  | .code (some l) =>
    [.elem (ascii "pre") [] [.elem (ascii "code") [.text (ascii "class") (ascii "language-" ++ l.text)] body]]
  | .html => body
  | .p => elem "p"
  | .table => elem "table"
  | .thead => elem "thead"
  | .tbody => elem "tbody"
  | .tr => elem "tr"
  | .th => elem "th"
  | .td => elem "td"

/-- the element of a span; the label of an image is its body -/
def Span.xml (s : Span) (body : List XmlNode) : XmlNode :=
  match s with
  | .em => .elem (ascii "em") [] body
  | .strong => .elem (ascii "strong") [] body
  | .a href title => .elem (ascii "a") (attr "href" href :: (title.map (attr "title")).toList) body
  | .img src title => .elem (ascii "img") (attr "src" src :: (title.map (attr "title")).toList) body
  | .code => .elem (ascii "code") [] body
  | .del => .elem (ascii "del") [] body

mutual
/-- the XML of a document; HTML in it is left out -/
def Node.xml : Node → List XmlNode
  | .text s => [.text s]
  | .br => [.elem (ascii "br") [] []]
  | .html _ => []
  | .hr => [.elem (ascii "hr") [] []]
  | .block b cs => b.xml (Node.xmls cs)
  | .span s cs => [s.xml (Node.xmls cs)]
def Node.xmls : List Node → List XmlNode
  | [] => []
  | n :: r => n.xml ++ Node.xmls r
end

mutual
/-- XML as data, without an attribute list where there is no attribute -/
def short : XmlNode → Sexp
  | .text s => .str s
  | .elem n [] b => .cons (.sym n) (.list (shorts b))
  | .elem n (a :: as) b =>
    .cons (.sym n) (.cons (.cons (.sym [64]) (.list ((a :: as).map XmlAttr.form))) (.list (shorts b)))
def shorts : List XmlNode → List Sexp
  | [] => []
  | n :: r => short n :: shorts r
end

/-- an attribute that is not empty and was not cut -/
def Attr.whole (a : Attr) : Prop := a.text ≠ [] ∧ a.cuts = [0, a.text.length]

/-- a code block without a language; the parser reports no cells of tables, which it was not told to look for -/
def Block.ok : Block → Prop
  | .code (some _) => False
  | .th => False
  | .td => False
  | _ => True

/-- links and images whose attributes are whole; no image with a title -/
def Span.ok : Span → Prop
  | .a href title => href.whole ∧ ∀ t, title = some t → t.whole
  | .img src title => src.whole ∧ title = none
  | _ => True

mutual
def Node.ok : Node → Prop
  | .block b cs => b.ok ∧ Node.oks cs
  | .span s cs => s.ok ∧ Node.oks cs
  | _ => True
def Node.oks : List Node → Prop
  | [] => True
  | n :: r => n.ok ∧ Node.oks r
end

end Spec.Md
