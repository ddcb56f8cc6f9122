import Verif.Model.Md
import Verif.Props.Sxml
/-
C74: Markdown to data.
-/
open Spec Spec.Md
namespace Cora.Md

theorem reverseH_list (l acc : List Sexp) : reverseH (.list l) (.list acc) = some (.list (l.reverse ++ acc)) := by
  induction l generalizing acc with
  | nil => rfl
  | cons a l ih =>
    have := ih (a :: acc)
    simp only [Sexp.list, reverseH] at this ⊢
    rw [this]
    simp

theorem reverse_list (l : List Sexp) : reverse (.list l) = some (.list l.reverse) := by
  have := reverseH_list l []
  rw [List.append_nil] at this
  exact this

/-- the current list and the stack hold these lists, latest first -/
structure View (r : St) (c : List Sexp) (fs : List (List Sexp)) : Prop where
  curr : r.curr = .list c
  cap : r.stack.length = r.cap
  size : r.size = fs.length
  frames : r.stack.take r.size = (fs.map Sexp.list).reverse

theorem View.le {r c fs} (h : View r c fs) : r.size ≤ r.cap := by
  have h1 := congrArg List.length h.frames
  simp only [List.length_take, List.length_reverse, List.length_map, h.cap, ← h.size] at h1
  omega

theorem push_view {r c fs} (h : View r c fs) : ∃ r', push r = some r' ∧ View r' c (c :: fs) := by
  have hle := h.le
  have hlt : (r.stack.take r.size).length = r.size := by rw [List.length_take, h.cap]; omega
  by_cases hc : r.size ≥ r.cap
  · have hcap : r.size < if r.cap = 0 then 16 else r.cap * 2 := by split <;> omega
    simp only [push, if_pos hc, hlt]
    have hlen : (r.stack.take r.size ++ List.replicate ((if r.cap = 0 then 16 else r.cap * 2) - r.size) Sexp.nil).length =
        if r.cap = 0 then 16 else r.cap * 2 := by
      rw [List.length_append, hlt, List.length_replicate]; omega
    rw [if_pos (by rw [hlen]; exact hcap)]
    refine ⟨_, rfl, h.curr, by simpa only [List.length_set] using hlen, by simp [h.size], ?_⟩
    simp only [List.map_cons, List.reverse_cons]
    rw [← h.frames, ← h.curr, List.take_add_one, List.getElem?_set_self (by rw [hlen]; exact hcap), List.take_set_of_le (Nat.le_refl _),
      List.take_left' hlt]
    rfl
  · simp only [push, if_neg hc]
    have hl : r.size < r.stack.length := by rw [h.cap]; omega
    rw [if_pos hl]
    refine ⟨_, rfl, h.curr, by simpa using h.cap, by simp [h.size], ?_⟩
    simp only [List.map_cons, List.reverse_cons]
    rw [← h.frames, ← h.curr, List.take_add_one, List.getElem?_set_self hl, List.take_set_of_le (Nat.le_refl _)]
    rfl

theorem View.withCurr {r c fs} (h : View r c fs) (d : List Sexp) : View { r with curr := .list d } d fs :=
  ⟨rfl, h.cap, h.size, h.frames⟩

theorem View.append {r c fs} (h : View r c fs) (x : Sexp) : View (appendCurr r x) (x :: c) fs :=
  ⟨by simp [appendCurr, h.curr, Sexp.list], h.cap, h.size, h.frames⟩

theorem pop_view {r c f fs} (h : View r c (f :: fs)) : ∃ r', pop r = some (.list f, r') ∧ View r' c fs := by
  have h0 : r.size = fs.length + 1 := h.size
  have hle := h.le
  have h1 := h.frames
  have hl : fs.length < r.stack.length := by rw [h.cap]; omega
  rw [h0, List.take_add_one, List.getElem?_eq_getElem hl] at h1
  simp only [Option.toList_some, List.map_cons, List.reverse_cons] at h1
  have h2 := List.append_inj_left' h1 rfl
  have h3 := List.append_inj_right' h1 rfl
  refine ⟨{ r with size := r.size - 1 }, ?_, h.curr, h.cap, by simp [h0], by simpa [h0] using h2⟩
  have h4 : r.stack[r.size - 1]? = some (.list f) := by
    rw [h0, Nat.add_sub_cancel, List.getElem?_eq_getElem hl]
    simpa using h3
  simp [pop, h0, h4, show ¬ (fs.length + 1 = 0) by omega]
  rw [show fs.length = r.size - 1 by omega, h4]

theorem enter_view {r c fs} (tag : String) (h : View r c fs) : ∃ r', enter r tag = some r' ∧ View r' [sym tag] (c :: fs) := by
  obtain ⟨r', h1, h2⟩ := push_view h
  exact ⟨_, by simp [enter, h1]; rfl, h2.withCurr [sym tag]⟩

theorem leave_view {r c f fs} (h : View r c (f :: fs)) :
    ∃ r', leave r = some r' ∧ View r' (.list c.reverse :: f) fs := by
  obtain ⟨r', h1, h2⟩ := pop_view h
  exact ⟨_, by simp [leave, h.curr, reverse_list, h1]; rfl, h2.withCurr (.list c.reverse :: f)⟩

theorem attr_view {r c fs} (name : String) (fn : List UInt8 → Sexp) (a : Attr) (ha : a.whole) (h : View r c fs) :
    ∃ r' d, attrList name fn a r = some (.list [sym name, fn a.text], r') ∧ View r' d fs := by
  have h1 : View { r with curr := .cons (sym name) .nil } [sym name] fs := h.withCurr [sym name]
  have h2 := h1.append (fn a.text)
  have hpos := List.length_pos_iff.mpr ha.1
  refine ⟨_, _, ?_, h2⟩
  have h3 : reverse (.list [fn a.text, sym name]) = some (.list [sym name, fn a.text]) := reverse_list _
  simp only [attrList, ha.2, renderAttribute, if_pos hpos, Nat.lt_irrefl, if_false, List.drop_zero, Nat.sub_zero, List.take_length,
    Option.bind_eq_bind, Option.bind_some, h2.curr, h3]

theorem steps_append (a b : List Event) (r : St) : steps (a ++ b) r = (steps a r).bind (steps b) := by
  induction a generalizing r with
  | nil => rfl
  | cons e a ih =>
    simp only [List.cons_append, steps]
    cases step r e with
    | none => rfl
    | some r' => exact ih r'

theorem shorts_append (a b : List XmlNode) : shorts (a ++ b) = shorts a ++ shorts b := by
  induction a with
  | nil => rfl
  | cons n a ih => simp [shorts, ih]

theorem short_elem (n : List UInt8) (b : List XmlNode) : short (.elem n [] b) = .list (.sym n :: shorts b) := by
  simp [short, Sexp.list]

theorem short_attrs (n : List UInt8) (a : XmlAttr) (as : List XmlAttr) (b : List XmlNode) : short (.elem n (a :: as) b) =
    .list (.sym n :: .list (.sym [64] :: (a :: as).map XmlAttr.form) :: shorts b) := by
  simp [short, Sexp.list]

/-- a block is entered and left around what adds the items `xs` -/
theorem block_view (b : Block) (hb : b.ok) (body : List XmlNode) {r : St} {c fs} (h : View r c fs)
    (inner : List Event) (hin : ∀ {r c fs}, View r c fs → ∃ r', steps inner r = some r' ∧ View r' ((shorts body).reverse ++ c) fs) :
    ∃ r', steps (.enterBlock b :: (inner ++ [.leaveBlock b])) r = some r' ∧ View r' ((shorts (b.xml body)).reverse ++ c) fs := by
  -- an element without attributes
  have simple : ∀ tag : String, (∀ r, enterBlock r b = enter r tag) → (∀ r, leaveBlock r b = leave r) →
      b.xml body = [.elem (ascii tag) [] body] →
      ∃ r', steps (.enterBlock b :: (inner ++ [.leaveBlock b])) r = some r' ∧ View r' ((shorts (b.xml body)).reverse ++ c) fs := by
    intro tag he hl hx
    obtain ⟨r1, h1, v1⟩ := enter_view tag h
    obtain ⟨r2, h2, v2⟩ := hin v1
    obtain ⟨r3, h3, v3⟩ := leave_view v2
    refine ⟨r3, ?_, ?_⟩
    · simp [steps, step, he, h1, steps_append, h2, hl, h3]
    · simpa [hx, shorts, short_elem, sym] using v3
  -- nothing is entered
  have through : (∀ r, enterBlock r b = some r) → (∀ r, leaveBlock r b = some r) → b.xml body = body →
      ∃ r', steps (.enterBlock b :: (inner ++ [.leaveBlock b])) r = some r' ∧ View r' ((shorts (b.xml body)).reverse ++ c) fs := by
    intro he hl hx
    obtain ⟨r2, h2, v2⟩ := hin h
    exact ⟨r2, by simp [steps, step, he, steps_append, h2, hl], by rw [hx]; exact v2⟩
  cases b with
  | doc => exact through (fun _ => rfl) (fun _ => rfl) rfl
  | html => exact through (fun _ => rfl) (fun _ => rfl) rfl
  | quote => exact simple "blockquote" (fun _ => rfl) (fun _ => rfl) rfl
  | ul => exact simple "ul" (fun _ => rfl) (fun _ => rfl) rfl
  | p => exact simple "p" (fun _ => rfl) (fun _ => rfl) rfl
  | table => exact simple "table" (fun _ => rfl) (fun _ => rfl) rfl
  | thead => exact simple "thead" (fun _ => rfl) (fun _ => rfl) rfl
  | tbody => exact simple "tbody" (fun _ => rfl) (fun _ => rfl) rfl
  | tr => exact simple "tr" (fun _ => rfl) (fun _ => rfl) rfl
  | th => exact hb.elim
  | td => exact hb.elim
  | h n => exact simple _ (fun _ => rfl) (fun _ => rfl) rfl
  | ol n =>
    by_cases hn : n = 1
    · subst hn
      exact simple "ol" (fun r => by simp [enterBlock, openOl]) (fun _ => rfl) rfl
    · obtain ⟨r1, h1, v1⟩ := enter_view "ol" h
      obtain ⟨r2, h2, v2⟩ := hin (v1.append (.list [sym "@", .list [sym "start", .int n]]))
      obtain ⟨r3, h3, v3⟩ := leave_view v2
      refine ⟨r3, ?_, ?_⟩
      · simp only [Sexp.list] at h2
        simp [steps, step, enterBlock, openOl, hn, h1, steps_append, h2, leaveBlock, h3]
      · simpa [Block.xml, hn, shorts, short_attrs, sym, XmlAttr.form, ascii] using v3
  | li t =>
    cases t with
    | none => exact simple "li" (fun _ => rfl) (fun _ => rfl) rfl
    | some m =>
      obtain ⟨r1, h1, v1⟩ := push_view h
      have v1' := (v1.withCurr [.list [sym "@", .list [sym "class", str "task-list-item"]], sym "li"]).append
        (short (checkbox m))
      obtain ⟨r2, h2, v2⟩ := hin v1'
      obtain ⟨r3, h3, v3⟩ := leave_view v2
      refine ⟨r3, ?_, ?_⟩
      · have hbox : short (checkbox m) = .cons (sym "input") (.cons (.cons (sym "@") (.cons (.cons (sym "type") (.cons (str "checkbox") .nil))
            (.cons (.cons (sym "class") (.cons (str "task-list-item-checkbox") .nil)) (.cons (sym "disabled")
              (if m = 120 ∨ m = 88 then Sexp.cons (sym "checked") .nil else .nil))))) .nil) := by
          simp only [checkbox]
          rw [List.cons_append, short_attrs]
          split <;> rfl
        rw [hbox] at h2
        simp only [Sexp.list] at h2
        simp only [steps, step, enterBlock, openLi, h1, Option.bind_eq_bind, Option.bind_some, steps_append, h2, leaveBlock, h3]
      · simpa [Block.xml, shorts, short_attrs, sym, str, XmlAttr.form, ascii] using v3
  | code l =>
    cases l with
    | some l => exact hb.elim
    | none =>
      obtain ⟨r1, h1, v1⟩ := push_view h
      obtain ⟨r2, h2, v2⟩ := push_view (v1.withCurr [sym "pre"])
      obtain ⟨r3, h3, v3⟩ := hin (v2.withCurr [sym "code"])
      obtain ⟨r4, h4, v4⟩ := leave_view v3
      obtain ⟨r5, h5, v5⟩ := leave_view v4
      refine ⟨r5, ?_, ?_⟩
      · simp only [Sexp.list] at h2 h3
        simp [steps, step, enterBlock, openCode, h1, h2, steps_append, h3, leaveBlock, h4, h5]
      · simpa [Block.xml, shorts, short_elem, sym] using v5

/-- the same for a span -/
theorem span_view (s : Span) (hs : s.ok) (body : List XmlNode) {r : St} {c fs} (h : View r c fs)
    (inner : List Event) (hin : ∀ {r c fs}, View r c fs → ∃ r', steps inner r = some r' ∧ View r' ((shorts body).reverse ++ c) fs) :
    ∃ r', steps (.enterSpan s :: (inner ++ [.leaveSpan s])) r = some r' ∧ View r' (short (s.xml body) :: c) fs := by
  have simple : ∀ tag : String, (∀ r, enterSpan r s = enter r tag) → s.xml body = .elem (ascii tag) [] body →
      ∃ r', steps (.enterSpan s :: (inner ++ [.leaveSpan s])) r = some r' ∧ View r' (short (s.xml body) :: c) fs := by
    intro tag he hx
    obtain ⟨r1, h1, v1⟩ := enter_view tag h
    obtain ⟨r2, h2, v2⟩ := hin v1
    obtain ⟨r3, h3, v3⟩ := leave_view v2
    refine ⟨r3, ?_, ?_⟩
    · simp [steps, step, he, h1, steps_append, h2, leaveSpan, h3]
    · simpa [hx, shorts, short_elem, sym] using v3
  cases s with
  | em => exact simple "em" (fun _ => rfl) rfl
  | strong => exact simple "strong" (fun _ => rfl) rfl
  | code => exact simple "code" (fun _ => rfl) rfl
  | del => exact simple "del" (fun _ => rfl) rfl
  | img src title =>
    obtain ⟨hs1, rfl⟩ := hs
    obtain ⟨r1, h1, v1⟩ := push_view h
    obtain ⟨r2, d, h2, v2⟩ := attr_view "src" url src hs1 v1
    obtain ⟨r3, h3, v3⟩ := hin (v2.withCurr [.list [sym "@", .list [sym "src", url src.text]], sym "img"])
    obtain ⟨r4, h4, v4⟩ := leave_view v3
    refine ⟨r4, ?_, ?_⟩
    · simp only [Sexp.list] at h2 h3
      simp [steps, step, enterSpan, openImg, h1, h2, steps_append, h3, leaveSpan, h4]
    · simpa [Span.xml, shorts, short_attrs, sym, url, attr, XmlAttr.form, ascii] using v4
  | a href title =>
    obtain ⟨r1, h1, v1⟩ := push_view h
    obtain ⟨r2, d, h2, v2⟩ := attr_view "href" url href hs.1 v1
    cases title with
    | none =>
      obtain ⟨r3, h3, v3⟩ := hin (v2.withCurr [.list [sym "@", .list [sym "href", url href.text]], sym "a"])
      obtain ⟨r4, h4, v4⟩ := leave_view v3
      refine ⟨r4, ?_, ?_⟩
      · have hrev : reverse (.list [.list [sym "href", url href.text], sym "@"]) = _ := reverse_list _
        simp only [Sexp.list, List.reverse_cons, List.reverse_nil, List.nil_append, List.cons_append] at h2 h3 hrev
        simp [steps, step, enterSpan, openA, h1, h2, hrev, steps_append, h3, leaveSpan, h4]
      · simpa [Span.xml, shorts, short_attrs, sym, url, attr, XmlAttr.form, ascii] using v4
    | some t =>
      obtain ⟨r3, d, h3, v3⟩ := attr_view "title" url t (hs.2 t rfl) v2
      obtain ⟨r4, h4, v4⟩ := hin (v3.withCurr [.list [sym "@", .list [sym "href", url href.text],
        .list [sym "title", url t.text]], sym "a"])
      obtain ⟨r5, h5, v5⟩ := leave_view v4
      refine ⟨r5, ?_, ?_⟩
      · have hrev : reverse (.list [.list [sym "title", url t.text], .list [sym "href", url href.text], sym "@"]) = _ := reverse_list _
        simp only [Sexp.list, List.reverse_cons, List.reverse_nil, List.nil_append, List.cons_append] at h2 h3 h4 hrev
        simp [steps, step, enterSpan, openA, h1, h2, h3, hrev, steps_append, h4, leaveSpan, h5]
      · simpa [Span.xml, shorts, short_attrs, sym, url, attr, XmlAttr.form, ascii] using v5

mutual
theorem node_view : ∀ (n : Node), n.ok → ∀ {r : St} {c fs}, View r c fs →
    ∃ r', steps (events n) r = some r' ∧ View r' ((shorts n.xml).reverse ++ c) fs
  | .text s, _, r, c, fs, h => ⟨_, by simp [events, steps, step]; rfl, by simpa [Node.xml, shorts, short] using h.append (.str s)⟩
  | .br, _, r, c, fs, h =>
    ⟨_, by simp [events, steps, step]; rfl, by simpa [Node.xml, shorts, short, Sexp.list, sym] using h.append (.list [sym "br"])⟩
  | .html s, _, r, c, fs, h => ⟨r, by simp [events, steps, step], by simpa [Node.xml, shorts] using h⟩
  | .hr, _, r, c, fs, h =>
    ⟨_, by simp [events, steps, step]; rfl, by simpa [Node.xml, shorts, short, Sexp.list, sym] using h.append (.list [sym "hr"])⟩
  | .block b cs, hok, r, c, fs, h => by
    rw [Node.ok] at hok
    rw [events, Node.xml]
    exact block_view b hok.1 _ h _ (nodes_view cs hok.2)
  | .span s cs, hok, r, c, fs, h => by
    rw [Node.ok] at hok
    rw [events, Node.xml]
    simpa [shorts] using span_view s hok.1 _ h _ (nodes_view cs hok.2)
theorem nodes_view : ∀ (ns : List Node), Node.oks ns → ∀ {r : St} {c fs}, View r c fs →
    ∃ r', steps (eventsL ns) r = some r' ∧ View r' ((shorts (Node.xmls ns)).reverse ++ c) fs
  | [], _, r, c, fs, h => ⟨r, by simp [eventsL, steps], by simpa [Node.xmls, shorts] using h⟩
  | n :: ns, hok, r, c, fs, h => by
    rw [Node.oks] at hok
    obtain ⟨r1, h1, v1⟩ := node_view n hok.1 h
    obtain ⟨r2, h2, v2⟩ := nodes_view ns hok.2 v1
    refine ⟨r2, by simp [eventsL, steps_append, h1, h2], ?_⟩
    simpa [Node.xmls, shorts_append] using v2
end

/-- what `process-file` returns is the document: the elements are nested as the parser reports them, with their text,
whatever the size and depth. (Without code blocks with a language, cut or empty attributes, and titles of images.) -/
theorem C74_tree_partial (ns : List Node) (h : Node.oks ns) : mdSxml (eventsL ns) = some (.list (shorts (Node.xmls ns))) := by
  have h0 : View ⟨.nil, [], 0, 0⟩ [] [] := ⟨rfl, rfl, rfl, rfl⟩
  obtain ⟨r, h1, v⟩ := nodes_view ns h h0
  simp [mdSxml, h1, v.curr, reverse_list]

/-! ### the data written as XML -/

open Cora.Sxml in
theorem xmlH_elem (junk : Nat → Nat → Byte) (n : Bytes) (body : Sexp) (hb : ∀ a d, body ≠ .cons (.cons (.sym [64]) a) d)
    (buf : Buf) : xmlH junk (.cons (.sym n) body) buf = (do
    let buf ← bufferAppend junk buf [60]
    let buf ← bufferAppend junk buf n
    if body = .nil then bufferAppend junk buf [32, 47, 62]
    else do
      let buf ← bufferAppend junk buf [62]
      let buf ← forEachH junk body buf
      let buf ← bufferAppend junk buf [60, 47]
      let buf ← bufferAppend junk buf n
      bufferAppend junk buf [62]) := by
  rw [xmlH]
  intro attrs b e
  exact hb _ _ e

mutual
/-- no element of the document is called `@` -/
def noAt : XmlNode → Prop
  | .text _ => True
  | .elem n _ b => n ≠ [64] ∧ noAts b
def noAts : List XmlNode → Prop
  | [] => True
  | n :: r => noAt n ∧ noAts r
end

theorem shorts_head {l : List XmlNode} (h : noAts l) (a d : Sexp) : Sexp.list (shorts l) ≠ .cons (.cons (.sym [64]) a) d := by
  cases l with
  | nil => intro e; cases e
  | cons n r =>
    rw [noAts] at h
    intro e
    simp only [shorts, Sexp.list] at e
    injection e with e1 e2
    cases n with
    | text s => simp [short] at e1
    | elem n as b =>
      rw [noAt] at h
      cases as with
      | nil => simp only [short] at e1; injection e1 with e3; injection e3 with e4; exact h.1.1 e4
      | cons x as => simp only [short] at e1; injection e1 with e3; injection e3 with e4; exact h.1.1 e4

open Cora.Sxml in
mutual
theorem appends_short (junk : Nat → Nat → Byte) : ∀ n : XmlNode, noAt n → Appends (fun b => xmlH junk (short n) b) (render n)
  | .text s, _ => by
    have := appends_escaped junk s
    simpa [short, xmlH, render] using this
  | .elem n [] [], _ => by
    have := (appends_append junk [60]).bind ((appends_append junk n).bind (appends_append junk [32, 47, 62]))
    simpa [short, shorts, Sexp.list, xmlH, render, renderAttrs] using this
  | .elem n (a :: as) [], _ => by
    have := (appends_append junk [60]).bind ((appends_append junk n).bind ((appends_attrs junk (a :: as)).bind
      (appends_append junk [32, 47, 62])))
    simpa [short, shorts, Sexp.list, xmlH, render] using this
  | .elem n [] (b :: bs), h => by
    rw [noAt, noAts] at h
    have h1 := appends_short junk b h.2.1
    have h2 := appends_shorts junk bs h.2.2
    have := (appends_append junk [60]).bind ((appends_append junk n).bind
      ((appends_append junk [62]).bind ((h1.bind h2).bind ((appends_append junk [60, 47]).bind
      ((appends_append junk n).bind (appends_append junk [62]))))))
    have hb := shorts_head (l := b :: bs) (by rw [noAts]; exact h.2)
    have e := fun buf => xmlH_elem junk n _ hb buf
    simp only [short, e]
    simpa [shorts, Sexp.list, forEachH, render, renderAttrs] using this
  | .elem n (a :: as) (b :: bs), h => by
    rw [noAt, noAts] at h
    have h1 := appends_short junk b h.2.1
    have h2 := appends_shorts junk bs h.2.2
    have := (appends_append junk [60]).bind ((appends_append junk n).bind ((appends_attrs junk (a :: as)).bind
      ((appends_append junk [62]).bind ((h1.bind h2).bind ((appends_append junk [60, 47]).bind
      ((appends_append junk n).bind (appends_append junk [62])))))))
    simpa [short, shorts, Sexp.list, xmlH, forEachH, render] using this
theorem appends_shorts (junk : Nat → Nat → Byte) :
    ∀ l : List XmlNode, noAts l → Appends (fun b => forEachH junk (.list (shorts l)) b) (renders l)
  | [], _ => by simpa [shorts, Sexp.list, forEachH, renders] using appends_skip
  | n :: r, h => by
    rw [noAts] at h
    have := (appends_short junk n h.1).bind (appends_shorts junk r h.2)
    simpa [shorts, Sexp.list, forEachH, renders] using this
end

open Cora.Sxml in
/-- a list of nodes -/
theorem appends_top (junk : Nat → Nat → Byte) :
    ∀ l : List XmlNode, noAts l → Appends (fun b => xmlH junk (.list (shorts l)) b) (renders l)
  | [], _ => by simpa [shorts, Sexp.list, xmlH, renders] using appends_skip
  | n :: r, h => by
    rw [noAts] at h
    have := (appends_short junk n h.1).bind (appends_top junk r h.2)
    have e : ∀ b, xmlH junk (.list (shorts (n :: r))) b = (xmlH junk (short n) b).bind fun b => xmlH junk (.list (shorts r)) b := by
      intro b
      cases n with
      | text s => simp [shorts, Sexp.list, short, xmlH]
      | elem t as body => cases as <;> simp [shorts, Sexp.list, short, xmlH]
    simp only [e, renders]
    exact this

theorem noAts_append {a b : List XmlNode} (ha : noAts a) (hb : noAts b) : noAts (a ++ b) := by
  induction a with
  | nil => exact hb
  | cons n a ih => rw [noAts] at ha; rw [List.cons_append, noAts]; exact ⟨ha.1, ih ha.2⟩

mutual
theorem node_noAt : ∀ n : Node, noAts n.xml
  | .text s => by simp [Node.xml, noAts, noAt]
  | .br => by simp [Node.xml, noAts, noAt]; decide
  | .html s => by simp [Node.xml, noAts]
  | .hr => by simp [Node.xml, noAts, noAt]; decide
  | .block b cs => by
    have := nodes_noAt cs
    rw [Node.xml]
    cases b with
    | h n =>
      have hn : ∀ n : Fin 6, ascii (["h1", "h2", "h3", "h4", "h5", "h6"].get n) ≠ [64] := by decide
      simp only [Block.xml, noAts, noAt, this, and_true]
      exact hn n
    | li t => cases t <;> simp [Block.xml, noAts, noAt, this, checkbox] <;> decide
    | code l => cases l <;> simp [Block.xml, noAts, noAt, this] <;> decide
    | _ => simp [Block.xml, noAts, noAt, this] <;> decide
  | .span s cs => by
    have := nodes_noAt cs
    rw [Node.xml]
    cases s <;> simp [Span.xml, noAts, noAt, this] <;> decide
theorem nodes_noAt : ∀ ns : List Node, noAts (Node.xmls ns)
  | [] => by simp [Node.xmls, noAts]
  | n :: ns => by
    have h1 := node_noAt n
    have h2 := nodes_noAt ns
    rw [Node.xmls]
    exact noAts_append h1 h2
end

open Cora.Sxml in
/-- the data written by `sxml->xml` is the document as XML -/
theorem C74_xml_partial (junk : Nat → Nat → Byte) (ns : List Node) (h : Node.oks ns) (hp : XmlNode.plains (Node.xmls ns)) :
    ∃ d t, mdSxml (eventsL ns) = some d ∧ XmlBody t (Node.xmls ns) ∧ (t.length ≤ 2 ^ 30 → xml junk d = some t) := by
  refine ⟨_, renders (Node.xmls ns), C74_tree_partial ns h, nodes_xml _ hp, fun hl => ?_⟩
  obtain ⟨b, e1, hb⟩ := makeBuffer_spec junk
  obtain ⟨b', e2, hb'⟩ := appends_top junk _ (nodes_noAt ns) b [] hb (by rw [List.nil_append]; exact hl)
  rw [List.nil_append] at hb'
  have e2 : xmlH junk (.list (shorts (Node.xmls ns))) b = some b' := e2
  have e3 := toString_spec hb' hl
  unfold xml
  rw [e1, Option.bind_eq_bind, Option.bind_some, e2, Option.bind_some]
  exact e3

/-- `- [x] see *[a](u "t")*` -/
example : Node.oks [.block .ul [.block (.li (some 120)) [.text (ascii "see "),
      .span .em [.span (.a ⟨ascii "u", [0, 1]⟩ (some ⟨ascii "t", [0, 1]⟩)) [.text (ascii "a")]]]]] ∧
    mdSxml (eventsL [.block .ul [.block (.li (some 120)) [.text (ascii "see "),
      .span .em [.span (.a ⟨ascii "u", [0, 1]⟩ (some ⟨ascii "t", [0, 1]⟩)) [.text (ascii "a")]]]]]) =
    some (.list [.list [sym "ul", .list [sym "li", .list [sym "@", .list [sym "class", str "task-list-item"]],
      .list [sym "input", .list [sym "@", .list [sym "type", str "checkbox"], .list [sym "class", str "task-list-item-checkbox"],
        sym "disabled", sym "checked"]], str "see ",
      .list [sym "em", .list [sym "a", .list [sym "@", .list [sym "href", str "u"], .list [sym "title", str "t"]],
        str "a"]]]]]) := by
  refine ⟨?_, by decide⟩
  simp only [Node.oks, Node.ok, Block.ok, Span.ok, Attr.whole, and_true, true_and]
  exact ⟨by decide, fun t ht => by cases ht; decide⟩

/-- the language of a code block does not become an attribute: the name and the marker `@` are in the wrong order -/
theorem C74_code_language_wrong :
    ∃ l : Attr, l.whole ∧ mdSxml (events (.block (.code (some l)) [.text (ascii "x")])) =
      some (.list [.list [sym "pre", .list [sym "code",
        .list [.list [sym "class", str "language-c"], sym "@", .nil], str "x"]]]) ∧
      shorts (Node.block (.code (some l)) [.text (ascii "x")]).xml =
        [.list [sym "pre", .list [sym "code", .list [sym "@", .list [sym "class", str "language-c"]], str "x"]]] :=
  ⟨⟨ascii "c", [0, 1]⟩, by unfold Attr.whole; decide, by decide, by decide⟩

/-- an address with an entity in it becomes several strings, of which only the first is written: the link goes elsewhere -/
theorem C74_cut_wrong :
    ∃ href : Attr, mdSxml (events (.span (.a href none) [.text (ascii "x")])) =
      some (.list [.list [sym "a", .list [sym "@", .list [sym "href", str "p?a=1", str "&amp;", str "b=2"]], str "x"]]) ∧
      shorts (Node.span (.a href none) [.text (ascii "x")]).xml =
        [.list [sym "a", .list [sym "@", .list [sym "href", str "p?a=1&amp;b=2"]], str "x"]] ∧
      ∀ junk buf, Sxml.attribute1 junk (.list [sym "href", str "p?a=1", str "&amp;", str "b=2"]) buf =
        Sxml.attribute1 junk (.list [sym "href", str "p?a=1"]) buf :=
  ⟨⟨ascii "p?a=1&amp;b=2", [0, 5, 10, 13]⟩, by decide, by decide, fun _ _ => rfl⟩

/-- a link with an empty address becomes an attribute without a value, which cannot be written: `sxml->xml` fails -/
theorem C74_empty_wrong :
    ∃ href : Attr, href.text = [] ∧ ∃ d, mdSxml (events (.span (.a href none) [.text (ascii "x")])) = some d ∧
      ∀ junk, Sxml.xml junk d = none := by
  refine ⟨⟨[], [0, 0]⟩, rfl, .list [.list [sym "a", .list [sym "@", .list [sym "href"]], str "x"]], by decide, fun junk => ?_⟩
  have h : ascii "@" = [64] := by decide
  simp [Sxml.xml, Sexp.list, sym, h, Sxml.xmlH, Sxml.attributes, Sxml.attribute1]

/-- the title of an image is lost -/
theorem C74_image_title_wrong (src : Attr) (title : Attr) (cs : List Node) :
    mdSxml (events (.span (.img src (some title)) cs)) = mdSxml (events (.span (.img src none) cs)) := by
  simp only [mdSxml, events]
  congr 1
  simp only [steps, step, enterSpan]
  cases openImg ⟨.nil, [], 0, 0⟩ src with
  | none => rfl
  | some r => simp only [Option.bind_eq_bind, Option.bind_some, steps_append, steps, step, leaveSpan]

/-- a table aborts the program: whatever was reported before, the first cell is the end of it -/
theorem C74_cell_wrong (before after : List Event) (b : Block) (hb : b = .th ∨ b = .td) :
    mdSxml (before ++ .enterBlock b :: after) = none := by
  have h : ∀ r, steps (.enterBlock b :: after) r = none := by
    intro r
    rcases hb with rfl | rfl <;> simp [steps, step, enterBlock]
  simp only [mdSxml, steps_append, Option.bind_eq_bind]
  cases steps before ⟨.nil, [], 0, 0⟩ with
  | none => rfl
  | some r => simp [h]

/-- such a document: a table with one cell -/
example : ∃ before after, eventsL [.block .table [.block .tbody [.block .tr [.block .td [.text (ascii "x")]]]]] =
    before ++ .enterBlock .td :: after :=
  ⟨[.enterBlock .table, .enterBlock .tbody, .enterBlock .tr], _, rfl⟩

end Cora.Md
