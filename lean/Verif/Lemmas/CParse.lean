import Verif.Spec.CLang
/-
The parser of Spec/CLang.lean reads back the tokens of a program.
-/
namespace Spec.C

mutual
/-- the tokens of an expression -/
def Expr.toks : Expr → List Tok
  | .id x => [.id x]
  | .num n => [.num n]
  | .neg n => [.sym 45, .num n]
  | .str b => [.str b]
  | .call f args => .id f :: .sym 40 :: Expr.toksL 41 args
  | .index x i => .id x :: .sym 91 :: (i.toks ++ [.sym 93])
  | .arrow x f => [.id x, .arrow, .id f]
  | .dot e f => e.toks ++ [.sym 46, .id f]
  | .mul a b => a.toks ++ .sym 42 :: b.toks
  | .eq a b => a.toks ++ .eqeq :: b.toks
def Expr.toksL (c : UInt8) : List Expr → List Tok
  | [] => [.sym c]
  | e :: es => e.toks ++ Expr.toksM c es
/-- the rest of a list -/
def Expr.toksM (c : UInt8) : List Expr → List Tok
  | [] => [.sym c]
  | e :: es => .sym 44 :: (e.toks ++ Expr.toksM c es)
end

mutual
/-- expressions without binary operators (`d`: and without literals) -/
def Expr.wfO (d : Bool) : Expr → Bool
  | .id x => isOperand x
  | .num _ => !d
  | .neg _ => !d
  | .str _ => !d
  | .call f args => isOperand f && Expr.wfL args
  | .index x i => isOperand x && Expr.wf i
  | .arrow x _ => isOperand x
  | .dot e _ => Expr.wfO true e
  | _ => false
/-- expressions with at most one binary operator -/
def Expr.wf : Expr → Bool
  | .mul a b => Expr.wfO false a && Expr.wfO false b
  | .eq a b => Expr.wfO false a && Expr.wfO false b
  | .id x => isOperand x
  | .num _ => true
  | .neg _ => true
  | .str _ => true
  | .call f args => isOperand f && Expr.wfL args
  | .index x i => isOperand x && Expr.wf i
  | .arrow x _ => isOperand x
  | .dot e _ => Expr.wfO true e
def Expr.wfL : List Expr → Bool
  | [] => true
  | e :: es => Expr.wf e && Expr.wfL es
end

/-- what follows does not belong to an operand -/
def Stop (r : List Tok) : Prop :=
  r.head? ≠ some (.sym 40) ∧ r.head? ≠ some (.sym 91) ∧ r.head? ≠ some .arrow ∧ r.head? ≠ some (.sym 46)

/-- what follows does not belong to an expression -/
def Stop2 (r : List Tok) : Prop := Stop r ∧ r.head? ≠ some (.sym 42) ∧ r.head? ≠ some .eqeq

theorem dots_stop {r : List Tok} (h : r.head? ≠ some (.sym 46)) (e : Expr) : dots e r = (e, r) := by
  unfold dots
  split
  · exact absurd rfl h
  · rfl

theorem dots_dot (e : Expr) (f : Bytes) (r : List Tok) : dots e (.sym 46 :: .id f :: r) = dots (.dot e f) r := by
  rw [dots]

@[simp] theorem expect_self (t : Tok) (r : List Tok) : expect t (t :: r) = some r := by simp [expect]

theorem toks_ne_nil : ∀ e : Expr, e.toks ≠ [] := by
  intro e; cases e <;> simp [Expr.toks]

theorem toks_pos (e : Expr) : 0 < e.toks.length := List.length_pos_iff.mpr (toks_ne_nil e)

/-- the first token of an expression -/
theorem toks_head_ne : ∀ (e : Expr) (c : UInt8) (r : List Tok), e.wf = true ∨ e.wfO true = true ∨ e.wfO false = true → c ≠ 45 →
    (e.toks ++ r).head? ≠ some (.sym c)
  | .id _, c, r, _, _ => by simp [Expr.toks]
  | .num _, c, r, _, _ => by simp [Expr.toks]
  | .neg _, c, r, _, h => by simp [Expr.toks, Ne.symm h]
  | .str _, c, r, _, _ => by simp [Expr.toks]
  | .call _ _, c, r, _, _ => by simp [Expr.toks]
  | .index _ _, c, r, _, _ => by simp [Expr.toks]
  | .arrow _ _, c, r, _, _ => by simp [Expr.toks]
  | .dot e f, c, r, h, hc => by
    rw [Expr.toks, List.append_assoc]
    exact toks_head_ne e c _ (.inr (.inl (by simpa [Expr.wf, Expr.wfO] using h))) hc
  | .mul a b, c, r, h, hc => by
    rw [Expr.toks, List.append_assoc]
    exact toks_head_ne a c _ (.inr (.inr (by
      simp [Expr.wf, Expr.wfO] at h; exact h.1))) hc
  | .eq a b, c, r, h, hc => by
    rw [Expr.toks, List.append_assoc]
    exact toks_head_ne a c _ (.inr (.inr (by
      simp [Expr.wf, Expr.wfO] at h; exact h.1))) hc

theorem wf_of_wfO {d : Bool} : ∀ {e : Expr}, e.wfO d = true → e.wf = true := by
  intro e h
  cases e <;> simp_all [Expr.wf, Expr.wfO]

/-- the statement about operands, expressions and lists -/
def Reads (n : Nat) : Prop :=
  (∀ e : Expr, ∀ d r, e.wfO d = true → Stop r ∨ (r.head? = some (.sym 46) ∧ e.wfO true = true) → 4 * e.toks.length ≤ n + 1 →
    operand n (e.toks ++ r) = some (if e.wfO true then dots e r else (e, r))) ∧
  (∀ e : Expr, ∀ r, e.wf = true → Stop2 r → 4 * e.toks.length ≤ n → expr n (e.toks ++ r) = some (e, r)) ∧
  (∀ es : List Expr, ∀ c r, c ≠ 44 → c ≠ 45 → c ≠ 40 → c ≠ 91 → c ≠ 46 → c ≠ 42 → Expr.wfL es = true → 4 * (Expr.toksL c es).length ≤ n →
    list n c (Expr.toksL c es ++ r) = some (es, r))

theorem operand_finish {n : Nat} {e : Expr} {d : Bool} {r : List Tok} (h : Reads n) (he : e.wfO d = true) (hr : Stop r)
    (hn : 4 * e.toks.length ≤ n + 1) : operand n (e.toks ++ r) = some (e, r) := by
  rw [h.1 e d r he (.inl hr) hn]
  rw [dots_stop hr.2.2.2]
  simp

theorem stop_sym {c : UInt8} (h1 : c ≠ 40) (h2 : c ≠ 91) (h3 : c ≠ 46) (r : List Tok) : Stop (.sym c :: r) := by
  simp [Stop, h1, h2, h3]

theorem stop2_sym {c : UInt8} (h1 : c ≠ 40) (h2 : c ≠ 91) (h3 : c ≠ 46) (h4 : c ≠ 42) (r : List Tok) : Stop2 (.sym c :: r) :=
  ⟨stop_sym h1 h2 h3 r, by simp [h4], by simp⟩

theorem toksL_cons (c : UInt8) (e : Expr) (es : List Expr) : Expr.toksL c (e :: es) =
    e.toks ++ (match es with | [] => [.sym c] | _ :: _ => .sym 44 :: Expr.toksL c es) := by
  cases es <;> simp [Expr.toksL, Expr.toksM]

theorem reads (n : Nat) : Reads n := by
  induction n with
  | zero =>
    refine ⟨fun e d r _ _ h => ?_, fun e r _ _ h => ?_, fun es c r _ _ _ _ _ _ _ h => ?_⟩
    · have := toks_pos e; omega
    · have := toks_pos e; omega
    · cases es with
      | nil => simp [Expr.toksL] at h
      | cons e es => have := toks_pos e; simp [Expr.toksL] at h; omega
  | succ n ih =>
    refine ⟨?_, ?_, ?_⟩
    · -- operands
      intro e
      induction e using Expr.rec (motive_2 := fun _ => True) with
      | nil => trivial
      | cons => trivial
      | id x =>
        intro d r he hr hn
        simp only [Expr.wfO] at he
        simp only [Expr.toks, List.cons_append, List.nil_append, operand, he, Bool.not_true, Bool.false_eq_true, if_false, Expr.wfO,
          if_true]
        rcases hr with hr | hr
        · rw [if_neg hr.1, if_neg hr.2.1, if_neg hr.2.2.1]
        · rw [if_neg (by rw [hr.1]; simp), if_neg (by rw [hr.1]; simp), if_neg (by rw [hr.1]; simp)]
      | num k => intro d r he hr hn; simp [Expr.toks, operand, Expr.wfO]
      | neg k => intro d r he hr hn; simp [Expr.toks, operand, Expr.wfO]
      | str b => intro d r he hr hn; simp [Expr.toks, operand, Expr.wfO]
      | call f args _ =>
        intro d r he hr hn
        simp only [Expr.wfO, Bool.and_eq_true] at he
        simp only [Expr.toks, List.length_cons] at hn
        simp only [Expr.toks, List.cons_append, operand, he.1, Bool.not_true, Bool.false_eq_true, if_false, Expr.wfO, he.2,
          Bool.and_true, if_true, List.head?_cons, List.tail_cons]
        rw [ih.2.2 args 41 r (by decide) (by decide) (by decide) (by decide) (by decide) (by decide) he.2 (by omega)]
        rfl
      | index x i _ =>
        intro d r he hr hn
        simp only [Expr.wfO, Bool.and_eq_true] at he
        simp only [Expr.toks, List.length_cons, List.length_append, List.length_nil] at hn
        simp only [Expr.toks, List.cons_append, operand, he.1, Bool.not_true, Bool.false_eq_true, if_false, Expr.wfO, he.2,
          Bool.and_true, if_true, List.head?_cons, List.tail_cons, List.append_assoc, List.nil_append, Option.some.injEq, Tok.sym.injEq]
        rw [if_neg (by decide), ih.2.1 i _ he.2 (stop2_sym (by decide) (by decide) (by decide) (by decide) r) (by omega)]
        simp
      | arrow x f =>
        intro d r he hr hn
        simp only [Expr.wfO] at he
        simp [Expr.toks, operand, Expr.wfO, he]
      | dot e f ihe =>
        intro d r he hr hn
        simp only [Expr.wfO] at he
        simp only [Expr.toks, List.length_append, List.length_cons, List.length_nil] at hn
        rw [Expr.toks, List.append_assoc]
        simp only [List.cons_append, List.nil_append]
        rw [ihe true _ he (.inr ⟨by simp, he⟩) (by omega), if_pos he, dots_dot, if_pos (by simpa [Expr.wfO] using he)]
      | mul a b _ _ => intro d r he; simp [Expr.wfO] at he
      | eq a b _ _ => intro d r he; simp [Expr.wfO] at he
    · -- expressions
      intro e r he hr hn
      have op : ∀ e : Expr, e.wfO false = true → 4 * e.toks.length ≤ n + 1 → expr (n + 1) (e.toks ++ r) = some (e, r) := by
        intro e he hn
        rw [expr, operand_finish ih he hr.1 hn]
        simp only [Option.bind_eq_bind, Option.bind_some]
        rw [if_neg hr.2.1, if_neg hr.2.2]
      cases e with
      | mul a b =>
        simp only [Expr.wf, Bool.and_eq_true] at he
        simp only [Expr.toks, List.length_append, List.length_cons] at hn
        rw [Expr.toks, List.append_assoc, List.cons_append, expr,
          operand_finish ih he.1 (stop_sym (by decide) (by decide) (by decide) _) (by omega)]
        simp only [Option.bind_eq_bind, Option.bind_some, List.head?_cons, if_true, List.tail_cons]
        rw [operand_finish ih he.2 hr.1 (by omega)]
        rfl
      | eq a b =>
        simp only [Expr.wf, Bool.and_eq_true] at he
        simp only [Expr.toks, List.length_append, List.length_cons] at hn
        rw [Expr.toks, List.append_assoc, List.cons_append, expr, operand_finish ih he.1 (by simp [Stop]) (by omega)]
        simp only [Option.bind_eq_bind, Option.bind_some, List.head?_cons, List.tail_cons]
        rw [if_neg (by simp)]
        simp only [if_true]
        rw [operand_finish ih he.2 hr.1 (by omega)]
        rfl
      | _ => exact op _ (by simpa [Expr.wf, Expr.wfO] using he) (by omega)
    · -- lists
      intro es c r h44 h45 h40 h91 h46 h42 he hn
      cases es with
      | nil => simp [Expr.toksL, list]
      | cons e es =>
        simp only [Expr.wfL, Bool.and_eq_true] at he
        rw [toksL_cons] at hn ⊢
        have hpos := toks_pos e
        simp only [List.length_append] at hn
        rw [List.append_assoc, list, if_neg (toks_head_ne e c _ (.inl he.1) h45)]
        cases es with
        | nil =>
          simp only [List.length_cons, List.length_nil] at hn
          simp only [List.cons_append, List.nil_append]
          rw [ih.2.1 e _ he.1 (stop2_sym h40 h91 h46 h42 r) (by omega)]
          simp
        | cons f es =>
          simp only [List.length_cons] at hn
          simp only [List.cons_append]
          rw [ih.2.1 e _ he.1 (stop2_sym (by decide) (by decide) (by decide) (by decide) _) (by omega)]
          simp only [Option.bind_eq_bind, Option.bind_some, List.head?_cons, Option.some.injEq, Tok.sym.injEq, Ne.symm h44, if_false,
            expect_self]
          rw [if_neg (by
            rw [Expr.toksL, List.append_assoc]
            simp only [Expr.wfL, Bool.and_eq_true] at he
            exact toks_head_ne f c _ (.inl he.2.1) h45)]
          rw [ih.2.2 (f :: es) c r h44 h45 h40 h91 h46 h42 he.2 (by omega)]
          rfl

theorem expr_toks {n : Nat} {e : Expr} {r : List Tok} (he : e.wf = true) (hr : Stop2 r) (hn : 4 * e.toks.length ≤ n) :
    expr n (e.toks ++ r) = some (e, r) := (reads n).2.1 e r he hr hn

theorem exprThen_toks {n : Nat} {e : Expr} {c : UInt8} {r : List Tok} (he : e.wf = true) (hn : 4 * e.toks.length ≤ n) (h1 : c ≠ 40)
    (h2 : c ≠ 91) (h3 : c ≠ 46) (h4 : c ≠ 42) : exprThen n (.sym c) (e.toks ++ .sym c :: r) = some (e, r) := by
  rw [exprThen, expr_toks he (stop2_sym h1 h2 h3 h4 r) hn]
  simp

theorem list_toks {n : Nat} {es : List Expr} {r : List Tok} (c : UInt8) (he : Expr.wfL es = true)
    (hn : 4 * (Expr.toksL c es).length ≤ n) (hc : c = 41 ∨ c = 125) : list n c (Expr.toksL c es ++ r) = some (es, r) := by
  rcases hc with rfl | rfl <;>
    exact (reads n).2.2 es _ r (by decide) (by decide) (by decide) (by decide) (by decide) (by decide) he hn

/-! ### statements -/

/-- the tokens of statements, with the closing brace -/
def Block.toks : Block → List Tok
  | .done => [.sym 125]
  | .decl t x e k => .id t :: .id x :: .sym 61 :: (e.toks ++ .sym 59 :: k.toks)
  | .ptr t x e k => .id t :: .sym 42 :: .id x :: .sym 61 :: (e.toks ++ .sym 59 :: k.toks)
  | .array t x n es k =>
    .id t :: .id x :: .sym 91 :: .num n :: .sym 93 :: .sym 61 :: .sym 123 :: (Expr.toksL 125 es ++ .sym 59 :: k.toks)
  | .assign l e k => l.toks ++ .sym 61 :: (e.toks ++ .sym 59 :: k.toks)
  | .expr e k => e.toks ++ .sym 59 :: k.toks
  | .ite e a b k =>
    .id (txt "if") :: .sym 40 :: (e.toks ++ .sym 41 :: .sym 123 :: (a.toks ++ .id (txt "else") :: .sym 123 :: (b.toks ++ k.toks)))
  | .only e a k => .id (txt "if") :: .sym 40 :: (e.toks ++ .sym 41 :: .sym 123 :: (a.toks ++ k.toks))
  | .ret k => .id (txt "return") :: .sym 59 :: k.toks

/-- an expression that starts with a name, so that it can be a statement -/
def Expr.lead : Expr → Bool
  | .id x => isName x
  | .call f _ => isName f
  | .index x _ => isName x
  | .arrow x _ => isName x
  | .dot e _ => e.lead
  | .mul a _ => a.lead
  | .eq a _ => a.lead
  | _ => false

def Block.wf : Block → Bool
  | .done => true
  | .decl t x e k => typeNames.contains t && isName x && e.wf && k.wf
  | .ptr t x e k => typeNames.contains t && isName x && e.wf && k.wf
  | .array t x _ es k => typeNames.contains t && isName x && Expr.wfL es && k.wf
  | .assign l e k => l.wf && l.lead && e.wf && k.wf
  | .expr e k => e.wf && e.lead && k.wf
  | .ite e a b k => e.wf && a.wf && b.wf && k.wf
  | .only e a k => e.wf && a.wf && k.wf
  | .ret k => k.wf

/-- the first token of a statement that starts with a name -/
theorem lead_head : ∀ {e : Expr} (r : List Tok), e.lead = true → ∃ x r', e.toks ++ r = .id x :: r' ∧ isName x = true
  | .id x, r, h => ⟨x, r, rfl, h⟩
  | .call f args, r, h => ⟨f, _, rfl, h⟩
  | .index x i, r, h => ⟨x, _, rfl, h⟩
  | .arrow x f, r, h => ⟨x, _, rfl, h⟩
  | .dot e f, r, h => by
    rw [Expr.toks, List.append_assoc]; exact lead_head _ h
  | .mul a b, r, h => by
    rw [Expr.toks, List.append_assoc]; exact lead_head _ h
  | .eq a b, r, h => by
    rw [Expr.toks, List.append_assoc]; exact lead_head _ h
  | .num _, r, h => by simp [Expr.lead] at h
  | .neg _, r, h => by simp [Expr.lead] at h
  | .str _, r, h => by simp [Expr.lead] at h

theorem not_if {t : Bytes} (h : typeNames.contains t = true) : t ≠ txt "if" ∧ t ≠ txt "return" := by
  constructor <;> · rintro rfl; revert h; decide

theorem name_not {x : Bytes} (h : isName x = true) : x ≠ txt "if" ∧ x ≠ txt "return" ∧ typeNames.contains x = false := by
  refine ⟨?_, ?_, ?_⟩
  · rintro rfl; revert h; decide
  · rintro rfl; revert h; decide
  · simp only [isName, Bool.and_eq_true, Bool.not_eq_true'] at h
    exact h.2

theorem block_pos (b : Block) : 0 < b.toks.length := by
  cases b <;> simp only [Block.toks, List.length_append, List.length_cons] <;> omega

/-- the first token of statements is not `else` -/
theorem block_head_ne {b : Block} (h : b.wf = true) (r : List Tok) : (b.toks ++ r).head? ≠ some (.id (txt "else")) := by
  have lead : ∀ e : Expr, e.lead = true → ∀ r, (e.toks ++ r).head? ≠ some (.id (txt "else")) := by
    intro e he r
    obtain ⟨x, r', h1, h2⟩ := lead_head r he
    rw [h1]
    rintro e
    simp only [List.head?_cons, Option.some.injEq, Tok.id.injEq] at e
    subst e
    revert h2; decide
  have ty : ∀ t : Bytes, typeNames.contains t = true → ∀ r : List Tok, (Tok.id t :: r).head? ≠ some (.id (txt "else")) := by
    intro t ht r e
    simp only [List.head?_cons, Option.some.injEq, Tok.id.injEq] at e
    subst e
    revert ht; decide
  have kw : ∀ (t : Bytes) (r : List Tok), t ≠ txt "else" → (Tok.id t :: r).head? ≠ some (.id (txt "else")) := by
    intro t r ht e
    simp only [List.head?_cons, Option.some.injEq, Tok.id.injEq] at e
    exact ht e
  cases b with
  | done => simp [Block.toks]
  | decl t x e k => simp only [Block.wf, Bool.and_eq_true] at h; exact ty t h.1.1.1 _
  | ptr t x e k => simp only [Block.wf, Bool.and_eq_true] at h; exact ty t h.1.1.1 _
  | array t x n es k => simp only [Block.wf, Bool.and_eq_true] at h; exact ty t h.1.1.1 _
  | assign l e k =>
    simp only [Block.wf, Bool.and_eq_true] at h
    simp only [Block.toks, List.append_assoc]
    exact lead l h.1.1.2 _
  | expr e k =>
    simp only [Block.wf, Bool.and_eq_true] at h
    simp only [Block.toks, List.append_assoc]
    exact lead e h.1.2 _
  | ite e a b k => exact kw _ _ (by decide)
  | only e a k => exact kw _ _ (by decide)
  | ret k => exact kw _ _ (by decide)

theorem block_toks : ∀ (b : Block) (n : Nat) (r : List Tok), b.wf = true → 4 * b.toks.length ≤ n →
    block n (b.toks ++ r) = some (b, r) := by
  intro b
  induction b with
  | done =>
    intro n r _ hn
    cases n with
    | zero => simp [Block.toks] at hn
    | succ n => simp [Block.toks, block]
  | decl t x e k ih =>
    intro n r h hn
    simp only [Block.wf, Bool.and_eq_true] at h
    cases n with
    | zero => have := block_pos (.decl t x e k); omega
    | succ n =>
      simp only [Block.toks, List.length_cons, List.length_append] at hn
      simp only [Block.toks, List.cons_append, List.append_assoc, block, reduceCtorEq, if_false, Tok.id.injEq, not_if h.1.1.1, h.1.1.1,
        if_true, declaration, h.1.1.2, Bool.not_true, Bool.false_eq_true, List.head?_cons, Option.some.injEq, Tok.sym.injEq, expect_self]
      rw [if_neg (by decide)]
      simp only [Option.bind_eq_bind, Option.bind_some]
      rw [exprThen_toks h.1.2 (by omega) (by decide) (by decide) (by decide) (by decide)]
      simp only [Option.bind_eq_bind, Option.bind_some]
      rw [ih n r h.2 (by omega)]
      rfl
  | ptr t x e k ih =>
    intro n r h hn
    simp only [Block.wf, Bool.and_eq_true] at h
    cases n with
    | zero => have := block_pos (.ptr t x e k); omega
    | succ n =>
      simp only [Block.toks, List.length_cons, List.length_append] at hn
      simp only [Block.toks, List.cons_append, List.append_assoc, block, reduceCtorEq, if_false, Tok.id.injEq, not_if h.1.1.1, h.1.1.1,
        if_true, declaration, h.1.1.2, expect_self, Bool.and_true, decide_true]
      simp only [Option.bind_eq_bind, Option.bind_some]
      rw [exprThen_toks h.1.2 (by omega) (by decide) (by decide) (by decide) (by decide)]
      simp only [Option.bind_eq_bind, Option.bind_some]
      rw [ih n r h.2 (by omega)]
      rfl
  | array t x m es k ih =>
    intro n r h hn
    simp only [Block.wf, Bool.and_eq_true] at h
    cases n with
    | zero => have := block_pos (.array t x m es k); omega
    | succ n =>
      simp only [Block.toks, List.length_cons, List.length_append] at hn
      simp only [Block.toks, List.cons_append, List.append_assoc, block, reduceCtorEq, if_false, Tok.id.injEq, not_if h.1.1.1, h.1.1.1,
        if_true, declaration, h.1.1.2, Bool.not_true, Bool.false_eq_true, List.head?_cons, expect_self, List.tail_cons,
        Option.bind_eq_bind, Option.bind_some]
      rw [list_toks 125 h.1.2 (by omega) (.inr rfl)]
      simp only [Option.bind_some, expect_self]
      rw [ih n r h.2 (by omega)]
      rfl
  | assign l e k ih =>
    intro n r h hn
    simp only [Block.wf, Bool.and_eq_true] at h
    cases n with
    | zero => have := block_pos (.assign l e k); omega
    | succ n =>
      simp only [Block.toks, List.length_cons, List.length_append] at hn
      have hl := toks_pos l
      rw [Block.toks, List.append_assoc]
      obtain ⟨y, r', h1, h2⟩ := lead_head (Tok.sym 61 :: (e.toks ++ Tok.sym 59 :: k.toks) ++ r) h.1.1.2
      have hy := name_not h2
      rw [h1, block, if_neg (by simp), if_neg (by simp [hy]), if_neg (by simp [hy])]
      simp only [hy.2.2, Bool.false_eq_true, if_false]
      rw [← h1, simple]
      simp only [List.cons_append, List.append_assoc]
      rw [expr_toks h.1.1.1 (stop2_sym (by decide) (by decide) (by decide) (by decide) _) (by omega)]
      simp only [Option.bind_eq_bind, Option.bind_some, List.head?_cons, if_true, List.tail_cons]
      rw [exprThen_toks h.1.2 (by omega) (by decide) (by decide) (by decide) (by decide)]
      simp only [Option.bind_some]
      rw [ih n r h.2 (by omega)]
      rfl
  | expr e k ih =>
    intro n r h hn
    simp only [Block.wf, Bool.and_eq_true] at h
    cases n with
    | zero => have := block_pos (.expr e k); omega
    | succ n =>
      simp only [Block.toks, List.length_cons, List.length_append] at hn
      have hl := toks_pos e
      rw [Block.toks, List.append_assoc]
      obtain ⟨y, r', h1, h2⟩ := lead_head (Tok.sym 59 :: k.toks ++ r) h.1.2
      have hy := name_not h2
      rw [h1, block, if_neg (by simp), if_neg (by simp [hy]), if_neg (by simp [hy])]
      simp only [hy.2.2, Bool.false_eq_true, if_false]
      rw [← h1, simple]
      simp only [List.cons_append, List.append_assoc]
      rw [expr_toks h.1.1 (stop2_sym (by decide) (by decide) (by decide) (by decide) _) (by omega)]
      simp only [Option.bind_eq_bind, Option.bind_some, List.head?_cons, Option.some.injEq, Tok.sym.injEq]
      rw [if_neg (by decide)]
      simp only [expect_self, Option.bind_some]
      rw [ih n r h.2 (by omega)]
      rfl
  | ite e a b k iha ihb ihk =>
    intro n r h hn
    simp only [Block.wf, Bool.and_eq_true] at h
    cases n with
    | zero => have := block_pos (.ite e a b k); omega
    | succ n =>
      simp only [Block.toks, List.length_cons, List.length_append] at hn
      simp only [Block.toks, List.cons_append, List.append_assoc, block, reduceCtorEq, if_false, if_true, expect_self,
        Option.bind_eq_bind, Option.bind_some]
      rw [exprThen_toks h.1.1.1 (by omega) (by decide) (by decide) (by decide) (by decide)]
      simp only [Option.bind_some, expect_self]
      rw [iha n _ h.1.1.2 (by omega)]
      simp only [Option.bind_some, List.head?_cons, if_true, List.tail_cons, expect_self]
      rw [ihb n _ h.1.2 (by omega)]
      simp only [Option.bind_some]
      rw [ihk n r h.2 (by omega)]
      rfl
  | only e a k iha ihk =>
    intro n r h hn
    simp only [Block.wf, Bool.and_eq_true] at h
    cases n with
    | zero => have := block_pos (.only e a k); omega
    | succ n =>
      simp only [Block.toks, List.length_cons, List.length_append] at hn
      simp only [Block.toks, List.cons_append, List.append_assoc, block, reduceCtorEq, if_false, if_true, expect_self,
        Option.bind_eq_bind, Option.bind_some]
      rw [exprThen_toks h.1.1 (by omega) (by decide) (by decide) (by decide) (by decide)]
      simp only [Option.bind_some, expect_self]
      rw [iha n _ h.1.2 (by omega)]
      simp only [Option.bind_some]
      rw [if_neg (block_head_ne h.2 r), ihk n r h.2 (by omega)]
      rfl
  | ret k ih =>
    intro n r h hn
    simp only [Block.wf] at h
    cases n with
    | zero => have := block_pos (.ret k); omega
    | succ n =>
      simp only [Block.toks, List.length_cons] at hn
      simp only [Block.toks, List.cons_append, block, reduceCtorEq, if_false, Tok.id.injEq]
      rw [if_neg (by decide)]
      simp only [if_true, expect_self, Option.bind_eq_bind, Option.bind_some]
      rw [ih n r h (by omega)]
      rfl

/-! ### files -/

def casesToks : List (Nat × Block) → List Tok
  | [] => [.sym 125]
  | (m, b) :: r => .id (txt "case") :: .num m :: .sym 58 :: .sym 123 :: (b.toks ++ casesToks r)

theorem cases_toks : ∀ (cs : List (Nat × Block)) (n : Nat) (r : List Tok), (∀ c ∈ cs, c.2.wf = true) →
    4 * (casesToks cs).length ≤ n → cases n (casesToks cs ++ r) = some (cs, r) := by
  intro cs
  induction cs with
  | nil =>
    intro n r _ hn
    cases n with
    | zero => simp [casesToks] at hn
    | succ n => simp [casesToks, cases]
  | cons c cs ih =>
    intro n r h hn
    obtain ⟨m, b⟩ := c
    simp only [casesToks, List.length_cons, List.length_append] at hn
    cases n with
    | zero => omega
    | succ n =>
      simp only [casesToks, List.cons_append, List.append_assoc, cases, List.head?_cons, Option.some.injEq, reduceCtorEq, if_false,
        expect_self, Option.bind_eq_bind, Option.bind_some]
      rw [block_toks b n _ (h (m, b) (by simp)) (by omega)]
      simp only [Option.bind_some]
      rw [ih n r (fun c hc => h c (by simp [hc])) (by omega)]
      rfl

def Body.toks : Body → List Tok
  | .plain b => b.toks
  | .switch e cs => .id (txt "switch") :: .sym 40 :: (e.toks ++ .sym 41 :: .sym 123 :: (casesToks cs ++ [.sym 125]))

def Body.wf : Body → Prop
  | .plain b => b.wf = true ∧ ∀ r, (b.toks ++ r).head? ≠ some (.id (txt "switch"))
  | .switch e cs => e.wf = true ∧ ∀ c ∈ cs, c.2.wf = true

theorem body_toks (b : Body) (n : Nat) (r : List Tok) (h : b.wf) (hn : 4 * b.toks.length ≤ n) :
    body n (b.toks ++ r) = some (b, r) := by
  cases b with
  | plain b =>
    simp only [Body.toks] at hn ⊢
    rw [body, if_neg (h.2 r), block_toks b n r h.1 hn]
    rfl
  | switch e cs =>
    simp only [Body.toks, List.length_cons, List.length_append, List.length_nil] at hn
    simp only [Body.toks, List.cons_append, List.append_assoc, body, List.head?_cons, if_true, List.tail_cons, expect_self,
      Option.bind_eq_bind, Option.bind_some, List.nil_append]
    rw [exprThen_toks h.1 (by omega) (by decide) (by decide) (by decide) (by decide)]
    simp only [Option.bind_some, expect_self]
    rw [cases_toks cs n _ h.2 (by omega)]
    simp

theorem expects_append (ts r : List Tok) : expects ts (ts ++ r) = some r := by
  induction ts with
  | nil => rfl
  | cons t ts ih => simp [expects, ih]

def Item.toks : Item → List Tok
  | .var x e => .id (txt "static") :: .id (txt "int") :: .id x :: .sym 61 :: (e.toks ++ [.sym 59])
  | .proto f => .id (txt "static") :: .id (txt "void") :: .id f :: (params ++ [.sym 59])
  | .func true f b => .id (txt "static") :: .id (txt "void") :: .id f :: (params ++ .sym 123 :: b.toks)
  | .func false f b => .id (txt "void") :: .id f :: (params ++ .sym 123 :: b.toks)

def Item.wf : Item → Prop
  | .var x e => isName x = true ∧ e.wf = true
  | .proto f => isName f = true
  | .func _ f b => isName f = true ∧ b.wf

def itemsToks : List Item → List Tok
  | [] => []
  | i :: r => i.toks ++ itemsToks r

theorem func_proto (n : Nat) (st : Bool) {f : Bytes} (hf : isName f = true) (r : List Tok) :
    func n st (.id f :: (params ++ .sym 59 :: r)) = some (.proto f, r) := by
  simp only [func, hf, Bool.not_true, Bool.false_eq_true, if_false]
  rw [expects_append]
  simp

theorem func_func (n : Nat) (st : Bool) {f : Bytes} (hf : isName f = true) {b : Body} (hb : b.wf) (hn : 4 * b.toks.length ≤ n) (r : List Tok) :
    func n st (.id f :: (params ++ .sym 123 :: (b.toks ++ r))) = some (.func st f b, r) := by
  simp only [func, hf, Bool.not_true, Bool.false_eq_true, if_false]
  rw [expects_append]
  simp only [Option.bind_eq_bind, Option.bind_some, List.head?_cons, Option.some.injEq, Tok.sym.injEq]
  rw [if_neg (by decide)]
  simp only [expect_self, Option.bind_some]
  rw [body_toks b n r hb hn]
  rfl

theorem items_toks : ∀ (is : List Item) (n : Nat), (∀ i ∈ is, i.wf) → 4 * (itemsToks is).length < n →
    items n (itemsToks is) = some is := by
  intro is
  induction is with
  | nil =>
    intro n _ hn
    cases n with
    | zero => simp at hn
    | succ n => simp [itemsToks, items]
  | cons i is ih =>
    intro n h hn
    have hi := h i (by simp)
    have ht := fun j hj => h j (List.mem_cons_of_mem _ hj)
    cases n with
    | zero => omega
    | succ n =>
      cases i with
      | var x e =>
        simp only [itemsToks, Item.toks, List.length_append, List.length_cons, List.length_nil] at hn
        simp only [itemsToks, Item.toks, List.cons_append, List.append_assoc, List.nil_append, items, Tok.id.injEq]
        rw [if_neg (by decide)]
        simp only [expect_self, Option.bind_eq_bind, Option.bind_some, List.head?_cons, Option.some.injEq, Tok.id.injEq]
        rw [if_neg (by decide)]
        simp only [hi.1, if_true, expect_self, Option.bind_some]
        rw [exprThen_toks hi.2 (by omega) (by decide) (by decide) (by decide) (by decide)]
        simp only [Option.bind_some]
        rw [ih n ht (by omega)]
        rfl
      | proto f =>
        simp only [itemsToks, Item.toks, List.length_append, List.length_cons, List.length_nil] at hn
        simp only [itemsToks, Item.toks, List.cons_append, List.append_assoc, List.nil_append, items, Tok.id.injEq]
        rw [if_neg (by decide)]
        simp only [expect_self, Option.bind_eq_bind, Option.bind_some, List.head?_cons, if_true, List.tail_cons]
        rw [func_proto n true hi]
        simp only [Option.bind_some]
        rw [ih n ht (by omega)]
        rfl
      | func st f b =>
        cases st with
        | true =>
          simp only [itemsToks, Item.toks, List.length_append, List.length_cons] at hn
          simp only [itemsToks, Item.toks, List.cons_append, List.append_assoc, items, Tok.id.injEq]
          rw [if_neg (by decide)]
          simp only [expect_self, Option.bind_eq_bind, Option.bind_some, List.head?_cons, if_true, List.tail_cons]
          rw [func_func n true hi.1 hi.2 (by omega)]
          simp only [Option.bind_some]
          rw [ih n ht (by omega)]
          rfl
        | false =>
          simp only [itemsToks, Item.toks, List.length_append, List.length_cons] at hn
          simp only [itemsToks, Item.toks, List.cons_append, List.append_assoc, items, if_true]
          rw [func_func n false hi.1 hi.2 (by omega)]
          simp only [Option.bind_eq_bind, Option.bind_some]
          rw [ih n ht (by omega)]
          rfl

/-- a text with the tokens of a program stands for the program -/
theorem parse_of_tokens {b : Bytes} {is : List Item} (h : ∀ i ∈ is, i.wf) (ht : tokens b = some (itemsToks is)) :
    parse b = some is := by
  rw [parse, ht]
  simp only [Option.bind_eq_bind, Option.bind_some]
  exact items_toks is _ h (by omega)

end Spec.C
