import Verif.Lemmas.CompileLive
/-
C37: no continuation loses a live local variable. The statement is about the final output of the compiler: a list of
functions, each with its numbered continuations.
-/
open Spec.Lang
namespace Cora.Compile

/-! ### what the output says -/

/-- the local variables an operand reads: for a closure those that are captured -/
def CSmp.reads : CSmp → List Sym
  | .ref (.loc x) => [x]
  | .closure _ _ _ frees => frees.flatMap Ref.free
  | _ => []

/-- the local variables that a piece of code reads and does not bind itself. At a call, those that are put into the
frame are read. -/
def CStm.uses : CStm → List Sym
  | .ret e => e.reads
  | .tail f args => f.reads ++ args.flatMap CSmp.reads
  | .call f args _ live => f.reads ++ args.flatMap CSmp.reads ++ live
  | .bind x e s => e.reads ++ s.uses.filter (· ≠ x)
  | .prim x _ args s => args.flatMap CSmp.reads ++ s.uses.filter (· ≠ x)
  | .seq e s => e.reads ++ s.uses
  | .ite e a b => e.reads ++ a.uses ++ b.uses

/-- the calls that are not tail calls: the number of the continuation, and what is put into the frame, in order -/
def CStm.calls : CStm → List (Nat × List Sym)
  | .ret _ => []
  | .tail _ _ => []
  | .call _ _ label live => [(label, live)]
  | .bind _ _ s => s.calls
  | .prim _ _ _ s => s.calls
  | .seq _ s => s.calls
  | .ite _ a b => a.calls ++ b.calls

/-- the functions an operand makes: label, number of parameters, size of the frame, captured variables -/
def CSmp.closures : CSmp → List (Nat × Nat × Nat × List Ref)
  | .closure label nargs nframe frees => [(label, nargs, nframe, frees)]
  | _ => []

/-- the functions that a piece of code makes -/
def CStm.closures : CStm → List (Nat × Nat × Nat × List Ref)
  | .ret e => e.closures
  | .tail f args => f.closures ++ args.flatMap CSmp.closures
  | .call f args _ _ => f.closures ++ args.flatMap CSmp.closures
  | .bind _ e s => e.closures ++ s.closures
  | .prim _ _ args s => args.flatMap CSmp.closures ++ s.closures
  | .seq e s => e.closures ++ s.closures
  | .ite e a b => e.closures ++ a.closures ++ b.closures

/-- the code of a function: what runs first, and the continuations -/
def Lam.pieces (l : Lam) : List CStm := l.body :: l.conts.map Cont.body

/-! ### the same before continuations are numbered -/

def LStm.uses : LStm → List Sym
  | .ret e => e.reads
  | .tail f args => f.reads ++ args.flatMap CSmp.reads
  | .call f args _ _ live => f.reads ++ args.flatMap CSmp.reads ++ live
  | .bind x e s => e.reads ++ s.uses.filter (· ≠ x)
  | .prim x _ args s => args.flatMap CSmp.reads ++ s.uses.filter (· ≠ x)
  | .seq e s => e.reads ++ s.uses
  | .ite e a b => e.reads ++ a.uses ++ b.uses

/-- every continuation has what it needs -/
def LStm.ok : LStm → Prop
  | .ret _ => True
  | .tail _ _ => True
  | .call _ _ val k live => k.ok ∧ live.Nodup ∧ val ∉ live ∧ ∀ x ∈ k.uses, x = val ∨ x ∈ live
  | .bind _ _ s => s.ok
  | .prim _ _ _ s => s.ok
  | .seq _ s => s.ok
  | .ite _ a b => a.ok ∧ b.ok

/-- the closures in the code refer to these functions -/
def LStm.closures : LStm → List (Nat × Nat × Nat × List Ref)
  | .ret e => e.closures
  | .tail f args => f.closures ++ args.flatMap CSmp.closures
  | .call f args _ k _ => f.closures ++ args.flatMap CSmp.closures ++ k.closures
  | .bind _ e s => e.closures ++ s.closures
  | .prim _ _ args s => args.flatMap CSmp.closures ++ s.closures
  | .seq e s => e.closures ++ s.closures
  | .ite e a b => e.closures ++ a.closures ++ b.closures

theorem collectCont_uses : ∀ (s : LStm) (cs : List Cont), (collectCont s cs).1.uses = s.uses
  | .ret e, cs => rfl
  | .tail f args, cs => rfl
  | .call f args val k live, cs => by simp only [collectCont, CStm.uses, LStm.uses]
  | .bind x e s, cs => by simp only [collectCont, CStm.uses, LStm.uses, collectCont_uses s]
  | .prim x p args s, cs => by simp only [collectCont, CStm.uses, LStm.uses, collectCont_uses s]
  | .seq e s, cs => by simp only [collectCont, CStm.uses, LStm.uses, collectCont_uses s]
  | .ite e a b, cs => by simp only [collectCont, CStm.uses, LStm.uses, collectCont_uses a, collectCont_uses b]

/-- the continuation with a number, in a list with the last first -/
def contAt (cs : List Cont) (label : Nat) : Option Cont := if 0 < label then cs.reverse[label - 1]? else none

theorem contAt_append {cs cs' : List Cont} {n : Nat} {c : Cont} (h : contAt cs n = some c) : contAt (cs' ++ cs) n = some c := by
  unfold contAt at h ⊢
  split at h
  · rw [if_pos ‹_›, List.reverse_append]
    obtain ⟨hl, h1⟩ := List.getElem?_eq_some_iff.mp h
    rw [List.getElem?_append_left hl, h]
  · simp at h

theorem contAt_new (c : Cont) (cs : List Cont) : contAt (c :: cs) (cs.length + 1) = some c := by
  unfold contAt
  rw [if_pos (Nat.succ_pos _)]
  simp

/-- a continuation has what it needs -/
def Cont.ok (c : Cont) : Prop := c.live.Nodup ∧ c.val ∉ c.live ∧ ∀ x ∈ c.body.uses, x = c.val ∨ x ∈ c.live

/-- the calls of a statement have their continuations -/
def Linked (cs : List Cont) (s : CStm) : Prop :=
  ∀ label live, (label, live) ∈ s.calls → ∃ c, contAt cs label = some c ∧ c.live = live

theorem Linked.more {cs cs' : List Cont} {s : CStm} (h : Linked cs s) : Linked (cs' ++ cs) s := fun label live hl =>
  let ⟨c, h1, h2⟩ := h label live hl
  ⟨c, contAt_append h1, h2⟩

/-- numbering continuations -/
theorem collectCont_ok : ∀ (s : LStm) (cs : List Cont), s.ok →
    ∃ new, (collectCont s cs).2 = new ++ cs ∧ Linked (new ++ cs) (collectCont s cs).1 ∧
      (∀ c ∈ new, c.ok ∧ Linked (new ++ cs) c.body)
  | .ret e, cs, _ => ⟨[], rfl, by intro _ _ h; simp [collectCont, CStm.calls] at h, by simp⟩
  | .tail f args, cs, _ => ⟨[], rfl, by intro _ _ h; simp [collectCont, CStm.calls] at h, by simp⟩
  | .call f args val k live, cs, h => by
    simp only [LStm.ok] at h
    obtain ⟨hk, h1, h2, h3⟩ := h
    obtain ⟨new, h4, h5, h6⟩ := collectCont_ok k cs hk
    refine ⟨⟨val, (collectCont k cs).1, live⟩ :: new, by simp [collectCont, h4], ?_, ?_⟩
    · intro label l hl
      simp only [collectCont, CStm.calls, List.mem_singleton, Prod.mk.injEq] at hl
      obtain ⟨rfl, rfl⟩ := hl
      rw [h4]
      exact ⟨_, contAt_new _ _, rfl⟩
    · intro c hc
      rcases List.mem_cons.mp hc with rfl | hc
      · exact ⟨⟨h1, h2, by simpa only [collectCont_uses] using h3⟩, h5.more (cs' := [_])⟩
      · exact ⟨(h6 c hc).1, (h6 c hc).2.more (cs' := [_])⟩
  | .bind x e s, cs, h => by
    obtain ⟨new, h4, h5, h6⟩ := collectCont_ok s cs h
    exact ⟨new, h4, h5, h6⟩
  | .prim x p args s, cs, h => by
    obtain ⟨new, h4, h5, h6⟩ := collectCont_ok s cs h
    exact ⟨new, h4, h5, h6⟩
  | .seq e s, cs, h => by
    obtain ⟨new, h4, h5, h6⟩ := collectCont_ok s cs h
    exact ⟨new, h4, h5, h6⟩
  | .ite e a b, cs, h => by
    obtain ⟨new, h4, h5, h6⟩ := collectCont_ok a cs h.1
    obtain ⟨new', h7, h8, h9⟩ := collectCont_ok b (collectCont a cs).2 h.2
    rw [h4] at h7 h8 h9
    refine ⟨new' ++ new, by simp [collectCont, h4, h7], ?_, ?_⟩
    · intro label live hl
      simp only [collectCont, CStm.calls, List.mem_append] at hl
      rw [List.append_assoc]
      rcases hl with hl | hl
      · exact h5.more (cs' := new') label live hl
      · rw [h4] at hl
        exact h8 label live hl
    · intro c hc
      rw [List.append_assoc]
      rcases List.mem_append.mp hc with hc | hc
      · exact h9 c hc
      · exact ⟨(h6 c hc).1, (h6 c hc).2.more⟩

/-- the functions made are those of the statement -/
theorem collectCont_closures : ∀ (s : LStm) (cs : List Cont) (q), q ∈ (collectCont s cs).1.closures ∨
    (∃ c ∈ (collectCont s cs).2, q ∈ c.body.closures) → q ∈ s.closures ∨ ∃ c ∈ cs, q ∈ c.body.closures
  | .ret e, cs, q, h => h
  | .tail f args, cs, q, h => h
  | .call f args val k live, cs, q, h => by
    have ih := collectCont_closures k cs q
    simp only [collectCont, CStm.closures, LStm.closures, List.mem_append, List.mem_cons, exists_eq_or_imp] at h ih ⊢
    grind
  | .bind x e s, cs, q, h => by
    have ih := collectCont_closures s cs q
    simp only [collectCont, CStm.closures, LStm.closures, List.mem_append] at h ih ⊢
    grind
  | .prim x p args s, cs, q, h => by
    have ih := collectCont_closures s cs q
    simp only [collectCont, CStm.closures, LStm.closures, List.mem_append] at h ih ⊢
    grind
  | .seq e s, cs, q, h => by
    have ih := collectCont_closures s cs q
    simp only [collectCont, CStm.closures, LStm.closures, List.mem_append] at h ih ⊢
    grind
  | .ite e a b, cs, q, h => by
    have iha := collectCont_closures a cs q
    have ihb := collectCont_closures b (collectCont a cs).2 q
    simp only [collectCont, CStm.closures, LStm.closures, List.mem_append] at h iha ihb ⊢
    grind

/-! ### numbering functions -/

/-- the frame is large enough -/
theorem frameSize_spec (l : Lam) : l.params.length < frameSize l ∧ ∀ c ∈ l.conts, c.live.length < frameSize l := by
  have key : ∀ (cs : List Cont) (acc : Nat),
      acc ≤ cs.foldl (fun acc c => let len := c.live.length + 1; if len > acc then len else acc) acc ∧
      ∀ c ∈ cs, c.live.length < cs.foldl (fun acc c => let len := c.live.length + 1; if len > acc then len else acc) acc := by
    intro cs
    induction cs with
    | nil => intro acc; simp
    | cons c cs ih =>
      intro acc
      simp only [List.foldl_cons]
      by_cases hgt : c.live.length + 1 > acc
      · rw [if_pos hgt]
        obtain ⟨h1, h2⟩ := ih (c.live.length + 1)
        refine ⟨Nat.le_trans (Nat.le_of_lt hgt) h1, fun d hd => ?_⟩
        rcases List.mem_cons.mp hd with rfl | hd
        · exact Nat.lt_of_lt_of_le (Nat.lt_succ_self _) h1
        · exact h2 d hd
      · rw [if_neg hgt]
        obtain ⟨h1, h2⟩ := ih acc
        refine ⟨h1, fun d hd => ?_⟩
        rcases List.mem_cons.mp hd with rfl | hd
        · exact Nat.lt_of_lt_of_le (by omega) h1
        · exact h2 d hd
  exact ⟨by have := (key l.conts (l.params.length + 1)).1; unfold frameSize; omega, (key l.conts _).2⟩

/-- what holds of every function of the output -/
structure Lam.ok (l : Lam) : Prop where
  linked : ∀ s ∈ l.pieces, ∀ label live, (label, live) ∈ s.calls → 0 < label ∧ ∃ c, l.conts[label - 1]? = some c ∧ c.live = live
  conts : ∀ c ∈ l.conts, c.ok

theorem lambdaFinal_ok (ps : List Sym) {s : LStm} (h : s.ok) : (lambdaFinal ps s).ok := by
  obtain ⟨new, h1, h2, h3⟩ := collectCont_ok s [] h
  simp only [List.append_nil] at h1 h2 h3
  have key : ∀ t, Linked new t → ∀ label live, (label, live) ∈ t.calls →
      0 < label ∧ ∃ c, (lambdaFinal ps s).conts[label - 1]? = some c ∧ c.live = live := by
    intro t ht label live hl
    obtain ⟨c, h4, h5⟩ := ht label live hl
    unfold contAt at h4
    split at h4
    · exact ⟨‹_›, c, by simpa only [lambdaFinal, h1] using h4, h5⟩
    · simp at h4
  refine ⟨fun t ht => ?_, fun c hc => ?_⟩
  · simp only [Lam.pieces, lambdaFinal, h1, List.mem_cons, List.mem_map, List.mem_reverse] at ht
    rcases ht with rfl | ⟨c, hc, rfl⟩
    · exact key _ h2
    · exact key _ (h3 c hc).2
  · simp only [lambdaFinal, h1, List.mem_reverse] at hc
    exact (h3 c hc).1

/-- a closure is made with the right numbers -/
def GoodClosure (code : List Lam) (q : Nat × Nat × Nat × List Ref) : Prop :=
  ∃ l, code[q.1]? = some l ∧ q.2.1 = l.params.length ∧ q.2.2.1 = frameSize l

theorem GoodClosure.more {code code' : List Lam} {q} (h : GoodClosure code q) : GoodClosure (code ++ code') q := by
  obtain ⟨l, h1, h2⟩ := h
  obtain ⟨hl, _⟩ := List.getElem?_eq_some_iff.mp h1
  exact ⟨l, by rw [List.getElem?_append_left hl, h1], h2⟩

/-- a function of the output is right, given all of the code -/
def GoodLam (code : List Lam) (l : Lam) : Prop := l.ok ∧ ∀ s ∈ l.pieces, ∀ q ∈ s.closures, GoodClosure code q

theorem GoodLam.more {code code' : List Lam} {l : Lam} (h : GoodLam code l) : GoodLam (code ++ code') l :=
  ⟨h.1, fun s hs q hq => (h.2 s hs q hq).more⟩

theorem lambdaFinal_good (ps : List Sym) {s : LStm} {code : List Lam} (h : s.ok) (hc : ∀ q ∈ s.closures, GoodClosure code q) :
    GoodLam code (lambdaFinal ps s) := by
  refine ⟨lambdaFinal_ok ps h, fun t ht q hq => ?_⟩
  refine hc q ?_
  have := collectCont_closures s [] q
  simp only [Lam.pieces, lambdaFinal, List.mem_cons, List.mem_map, List.mem_reverse] at ht
  simp only [List.not_mem_nil, false_and, exists_false, or_false] at this
  rcases ht with rfl | ⟨c, hc, rfl⟩
  · exact this (.inl hq)
  · exact this (.inr ⟨c, hc, hq⟩)

theorem all_append {code code' : List Lam} (h : ∀ l ∈ code, GoodLam code l) (h' : ∀ l ∈ code', GoodLam (code ++ code') l) :
    ∀ l ∈ code ++ code', GoodLam (code ++ code') l := by
  intro l hl
  rcases List.mem_append.mp hl with hl | hl
  · exact (h l hl).more
  · exact h' l hl

/-- the result of numbering the functions of a statement -/
structure Collected (free : List Sym) (s : LStm) (code code' : List Lam) : Prop where
  grows : ∃ new, code' = code ++ new
  good : (∀ l ∈ code, GoodLam code l) → ∀ l ∈ code', GoodLam code' l
  ok : s.ok
  uses : ∀ x ∈ s.uses, x ∈ free
  closures : ∀ q ∈ s.closures, GoodClosure code' q

/-- the same for an operand -/
structure CollectedE (free : List Sym) (e : CSmp) (code code' : List Lam) : Prop where
  grows : ∃ new, code' = code ++ new
  good : (∀ l ∈ code, GoodLam code l) → ∀ l ∈ code', GoodLam code' l
  uses : ∀ x ∈ e.reads, x ∈ free
  closures : ∀ q ∈ e.closures, GoodClosure code' q

/-- the same for operands -/
structure CollectedEs (free : List Sym) (es : List CSmp) (code code' : List Lam) : Prop where
  grows : ∃ new, code' = code ++ new
  good : (∀ l ∈ code, GoodLam code l) → ∀ l ∈ code', GoodLam code' l
  uses : ∀ x ∈ es.flatMap CSmp.reads, x ∈ free
  closures : ∀ q ∈ es.flatMap CSmp.closures, GoodClosure code' q

theorem grows_trans {a b c : List Lam} (h : ∃ n, b = a ++ n) (h' : ∃ n, c = b ++ n) : ∃ n, c = a ++ n := by
  obtain ⟨n, rfl⟩ := h
  obtain ⟨m, rfl⟩ := h'
  exact ⟨n ++ m, by simp⟩

theorem closures_more {a b : List Lam} (h : ∃ n, b = a ++ n) {qs : List (Nat × Nat × Nat × List Ref)}
    (hq : ∀ q ∈ qs, GoodClosure a q) : ∀ q ∈ qs, GoodClosure b q := by
  obtain ⟨n, rfl⟩ := h
  exact fun q h => (hq q h).more

theorem foldl_nodup : ∀ (rs : List Ref) {acc : List Sym}, acc.Nodup →
    (rs.foldl (fun acc r => union acc r.free) acc).Nodup
  | [], _, h => h
  | r :: rs, _, h => by
    rw [List.foldl_cons]
    exact foldl_nodup rs (nodup_union h (by cases r <;> simp [Ref.free]))

mutual
theorem efree_nodup : ∀ e : Smp, e.free.Nodup
  | .const _ => by simp [Smp.free]
  | .global _ => by simp [Smp.free]
  | .ref r => by cases r <;> simp [Smp.free, Ref.free]
  | .closure ps b frees => by
    rw [Smp.free]
    exact foldl_nodup frees (nodup_union .nil (nodup_diff (sfree_nodup b)))
theorem sfree_nodup : ∀ s : Stm, s.free.Nodup
  | .ret e => by rw [Stm.free]; exact efree_nodup e
  | .tail f args => by rw [Stm.free]; exact efrees_nodup args (nodup_union .nil (efree_nodup f))
  | .call f args val k live => by
    rw [Stm.free]
    exact nodup_union (nodup_union .nil (efrees_nodup args (nodup_union .nil (efree_nodup f)))) (nodup_diff (sfree_nodup k))
  | .bind x e s => by rw [Stm.free]; exact nodup_union (efree_nodup e) (nodup_diff (sfree_nodup s))
  | .prim x p args s => by rw [Stm.free]; exact nodup_union (efrees_nodup args .nil) (nodup_diff (sfree_nodup s))
  | .seq e s => by rw [Stm.free]; exact nodup_union (nodup_union .nil (efree_nodup e)) (sfree_nodup s)
  | .ite e a b => by
    rw [Stm.free]
    exact nodup_union (nodup_union (nodup_union .nil (efree_nodup e)) (sfree_nodup a)) (sfree_nodup b)
theorem efrees_nodup : ∀ (es : List Smp) {acc : List Sym}, acc.Nodup → (Smp.frees acc es).Nodup
  | [], _, h => by rw [Smp.frees]; exact h
  | e :: es, _, h => by rw [Smp.frees]; exact efrees_nodup es (nodup_union h (efree_nodup e))
end

mutual
theorem collectSmp_spec : ∀ (e : Smp) (code : List Lam),
    CollectedE e.free (collectSmp e.liveness code).1 code (collectSmp e.liveness code).2
  | .const d, code => ⟨⟨[], by simp [Smp.liveness, collectSmp]⟩, id, by simp [Smp.liveness, collectSmp, CSmp.reads],
      by simp [Smp.liveness, collectSmp, CSmp.closures]⟩
  | .global x, code => ⟨⟨[], by simp [Smp.liveness, collectSmp]⟩, id, by simp [Smp.liveness, collectSmp, CSmp.reads],
      by simp [Smp.liveness, collectSmp, CSmp.closures]⟩
  | .ref (.loc x), code => ⟨⟨[], by simp [Smp.liveness, collectSmp]⟩, id,
      by simp [Smp.liveness, collectSmp, CSmp.reads, Smp.free, Ref.free], by simp [Smp.liveness, collectSmp, CSmp.closures]⟩
  | .ref (.cap i), code => ⟨⟨[], by simp [Smp.liveness, collectSmp]⟩, id,
      by simp [Smp.liveness, collectSmp, CSmp.reads], by simp [Smp.liveness, collectSmp, CSmp.closures]⟩
  | .closure ps body frees, code => by
    have h := collectStm_spec body code
    simp only [Smp.liveness, collectSmp]
    refine ⟨grows_trans h.grows ⟨_, rfl⟩, fun hg => all_append (h.good hg) ?_, ?_, ?_⟩
    · intro l hl
      rw [List.mem_singleton] at hl
      subst hl
      exact (lambdaFinal_good ps h.ok h.closures).more
    · intro x hx
      simp only [CSmp.reads, List.mem_flatMap] at hx
      rw [Smp.free, mem_foldl_refs]
      exact .inr hx
    · intro q hq
      simp only [CSmp.closures, List.mem_singleton] at hq
      subst hq
      exact ⟨lambdaFinal ps (collectStm body.liveness code).1, by simp, rfl, rfl⟩
theorem collectStm_spec : ∀ (s : Stm) (code : List Lam),
    Collected s.free (collectStm s.liveness code).1 code (collectStm s.liveness code).2
  | .ret e, code => by
    have h := collectSmp_spec e code
    simp only [Stm.liveness, collectStm]
    exact ⟨h.grows, h.good, trivial, by simpa only [LStm.uses, Stm.free] using h.uses,
      by simpa only [LStm.closures] using h.closures⟩
  | .tail f args, code => by
    have hf := collectSmp_spec f code
    have ha := collectSmps_spec args (collectSmp f.liveness code).2
    simp only [Stm.liveness, collectStm]
    refine ⟨grows_trans hf.grows ha.grows, fun h => ha.good (hf.good h), trivial, fun x hx => ?_, fun q hq => ?_⟩
    · simp only [LStm.uses, List.mem_append] at hx
      rw [Stm.free, mem_sfrees_acc, mem_union]
      rcases hx with hx | hx
      · exact .inl (.inr (hf.uses x hx))
      · exact .inr (ha.uses x hx)
    · simp only [LStm.closures, List.mem_append] at hq
      rcases hq with hq | hq
      · exact closures_more ha.grows hf.closures q hq
      · exact ha.closures q hq
  | .call f args val k live, code => by
    have hf := collectSmp_spec f code
    have ha := collectSmps_spec args (collectSmp f.liveness code).2
    have hk := collectStm_spec k (collectSmps (Smp.livenesses args) (collectSmp f.liveness code).2).2
    simp only [Stm.liveness, collectStm]
    refine ⟨grows_trans hf.grows (grows_trans ha.grows hk.grows), fun h => hk.good (ha.good (hf.good h)),
      ⟨hk.ok, nodup_diff (sfree_nodup k), by simp [mem_diff], fun x hx => ?_⟩, fun x hx => ?_, fun q hq => ?_⟩
    · by_cases hv : x = val
      · exact .inl hv
      · exact .inr (by simp [mem_diff, hk.uses x hx, hv])
    · simp only [LStm.uses, List.mem_append] at hx
      rw [mem_call_free]
      rcases hx with (hx | hx) | hx
      · exact .inl (hf.uses x hx)
      · exact .inr (.inl (ha.uses x hx))
      · exact .inr (.inr (by simpa [mem_diff] using hx))
    · simp only [LStm.closures, List.mem_append] at hq
      rcases hq with (hq | hq) | hq
      · exact closures_more (grows_trans ha.grows hk.grows) hf.closures q hq
      · exact closures_more hk.grows ha.closures q hq
      · exact hk.closures q hq
  | .bind y e s, code => by
    have he := collectSmp_spec e code
    have hs := collectStm_spec s (collectSmp e.liveness code).2
    simp only [Stm.liveness, collectStm]
    refine ⟨grows_trans he.grows hs.grows, fun h => hs.good (he.good h), hs.ok, fun x hx => ?_, fun q hq => ?_⟩
    · simp only [LStm.uses, List.mem_append, List.mem_filter] at hx
      rw [Stm.free, mem_union, mem_diff]
      rcases hx with hx | hx
      · exact .inl (he.uses x hx)
      · exact .inr ⟨hs.uses x hx.1, by simpa using hx.2⟩
    · simp only [LStm.closures, List.mem_append] at hq
      rcases hq with hq | hq
      · exact closures_more hs.grows he.closures q hq
      · exact hs.closures q hq
  | .prim y p args s, code => by
    have he := collectSmps_spec args code
    have hs := collectStm_spec s (collectSmps (Smp.livenesses args) code).2
    simp only [Stm.liveness, collectStm]
    refine ⟨grows_trans he.grows hs.grows, fun h => hs.good (he.good h), hs.ok, fun x hx => ?_, fun q hq => ?_⟩
    · simp only [LStm.uses, List.mem_append, List.mem_filter] at hx
      rw [Stm.free, mem_union, mem_diff]
      rcases hx with hx | hx
      · exact .inl (he.uses x hx)
      · exact .inr ⟨hs.uses x hx.1, by simpa using hx.2⟩
    · simp only [LStm.closures, List.mem_append] at hq
      rcases hq with hq | hq
      · exact closures_more hs.grows he.closures q hq
      · exact hs.closures q hq
  | .seq e s, code => by
    have he := collectSmp_spec e code
    have hs := collectStm_spec s (collectSmp e.liveness code).2
    simp only [Stm.liveness, collectStm]
    refine ⟨grows_trans he.grows hs.grows, fun h => hs.good (he.good h), hs.ok, fun x hx => ?_, fun q hq => ?_⟩
    · simp only [LStm.uses, List.mem_append] at hx
      rw [Stm.free, mem_union, mem_union]
      rcases hx with hx | hx
      · exact .inl (.inr (he.uses x hx))
      · exact .inr (hs.uses x hx)
    · simp only [LStm.closures, List.mem_append] at hq
      rcases hq with hq | hq
      · exact closures_more hs.grows he.closures q hq
      · exact hs.closures q hq
  | .ite e a b, code => by
    have he := collectSmp_spec e code
    have ha := collectStm_spec a (collectSmp e.liveness code).2
    have hb := collectStm_spec b (collectStm a.liveness (collectSmp e.liveness code).2).2
    simp only [Stm.liveness, collectStm]
    refine ⟨grows_trans he.grows (grows_trans ha.grows hb.grows), fun h => hb.good (ha.good (he.good h)), ⟨ha.ok, hb.ok⟩,
      fun x hx => ?_, fun q hq => ?_⟩
    · simp only [LStm.uses, List.mem_append] at hx
      rw [Stm.free, mem_union, mem_union, mem_union]
      rcases hx with (hx | hx) | hx
      · exact .inl (.inl (.inr (he.uses x hx)))
      · exact .inl (.inr (ha.uses x hx))
      · exact .inr (hb.uses x hx)
    · simp only [LStm.closures, List.mem_append] at hq
      rcases hq with (hq | hq) | hq
      · exact closures_more (grows_trans ha.grows hb.grows) he.closures q hq
      · exact closures_more hb.grows ha.closures q hq
      · exact hb.closures q hq
theorem collectSmps_spec : ∀ (es : List Smp) (code : List Lam),
    CollectedEs (Smp.frees [] es) (collectSmps (Smp.livenesses es) code).1 code (collectSmps (Smp.livenesses es) code).2
  | [], code => ⟨⟨[], by simp [Smp.livenesses, collectSmps]⟩, id, by simp [Smp.livenesses, collectSmps],
      by simp [Smp.livenesses, collectSmps]⟩
  | e :: es, code => by
    have he := collectSmp_spec e code
    have hs := collectSmps_spec es (collectSmp e.liveness code).2
    simp only [Smp.livenesses, collectSmps]
    refine ⟨grows_trans he.grows hs.grows, fun h => hs.good (he.good h), fun x hx => ?_, fun q hq => ?_⟩
    · simp only [List.flatMap_cons, List.mem_append] at hx
      rw [mem_sfrees_cons]
      rcases hx with hx | hx
      · exact .inl (he.uses x hx)
      · exact .inr (hs.uses x hx)
    · simp only [List.flatMap_cons, List.mem_append] at hq
      rcases hq with hq | hq
      · exact closures_more hs.grows he.closures q hq
      · exact hs.closures q hq
end

/-! ### the property -/

/-- **C37.** Whatever the program: in every function of the output, every call that is not a tail call has a continuation,
under the number given in the call. Every local variable that the continuation uses is the result of the call or is among the
variables put into the frame before the call. The continuation takes them out of the frame in the order in which they were put there,
each has one place, and none of them is hidden by the result of the call.
Every function is made with a frame that has room for its parameters and for what any of its calls puts there (register 0
is not used for variables), and with the right number of parameters. -/
theorem C37_saved (e : Core) (k k' : Nat) (code : List Lam) (h : compile e k = some (code, k')) :
    ∀ l ∈ code, ∀ s ∈ l.pieces,
      (∀ label live, (label, live) ∈ s.calls → 0 < label ∧ ∃ c, l.conts[label - 1]? = some c ∧
        c.live = live ∧ live.Nodup ∧ c.val ∉ live ∧ ∀ x ∈ c.body.uses, x = c.val ∨ x ∈ live) ∧
      (∀ label nargs nframe frees, (label, nargs, nframe, frees) ∈ s.closures → ∃ l', code[label]? = some l' ∧
        nargs = l'.params.length ∧ nargs < nframe ∧ ∀ c ∈ l'.conts, c.live.length < nframe) := by
  simp only [compile, Option.bind_eq_bind, Option.bind_eq_some_iff] at h
  obtain ⟨⟨e1, k1⟩, h1, h2⟩ := h
  simp only [Option.some.injEq, Prod.mk.injEq] at h2
  obtain ⟨rfl, -⟩ := h2
  generalize (tailify (conv [] e1) .id k1).1 = s0
  have hs := collectStm_spec s0 []
  have hall : ∀ l ∈ collect s0.liveness, GoodLam (collect s0.liveness) l := by
    unfold collect
    refine all_append (hs.good (by simp)) fun l hl => ?_
    rw [List.mem_singleton] at hl
    subst hl
    exact (lambdaFinal_good [] hs.ok hs.closures).more
  intro l hl s hp
  obtain ⟨⟨h1, h2⟩, h3⟩ := hall l hl
  refine ⟨fun label live hc => ?_, fun label nargs nframe frees hq => ?_⟩
  · obtain ⟨h4, c, h5, h6⟩ := h1 s hp label live hc
    obtain ⟨h7, h8, h9⟩ := h2 c (List.mem_of_getElem? h5)
    subst h6
    exact ⟨h4, c, h5, rfl, h7, h8, h9⟩
  · obtain ⟨l', h4, h5, h6⟩ := h3 s hp _ hq
    obtain ⟨h7, h8⟩ := frameSize_spec l'
    simp only at h4 h5 h6
    subst h5 h6
    exact ⟨l', h4, rfl, h7, h8⟩

/-- **C37**, what it means when the program runs: a program whose continuations get only the saved variables computes what
it computes when they get all local variables: the same value, except for the code inside functions, and the
same changes of the global variables and of everything else. (`Parametric`: native functions do not look into functions.) -/
theorem C37_same_result {W : Type} {O : Outside W} (hO : Parametric O) (s : Stm) (n : Nat) (w w' : CWorld Code3 W)
    (hw : WRel RLive w w') :
    RRel RLive (runStm false O (apply O (run3 false O) n) [] s [] w)
      (runStm true O (apply O (run3 true O) n) [] s.liveness [] w') :=
  runStm_live hO (apply_rel hO (run_live hO) n) .nil s [] [] w w' (fun _ _ => .none) hw

/-- `(lambda (x y) (g (h x) (f y x)))` -/
def savedExample : Core :=
  .lam [.named "x", .named "y"] (.app (.var (.named "g"))
    [.app (.var (.named "h")) [.var (.named "x")], .app (.var (.named "f")) [.var (.named "y"), .var (.named "x")]])

/-- it has two calls; before the first `y` and `x` are saved, before the second the result of the first -/
example : ∃ code k, compile savedExample 0 = some (code, k) ∧
    code.map (fun l => (l.body.calls, l.conts.map fun c => (c.val, c.live, c.body.calls))) =
      [([(2, [.named "y", .named "x"])], [(.gen 1, [.gen 0], []), (.gen 0, [.named "y", .named "x"], [(1, [.gen 0])])]), ([], [])] :=
  ⟨_, _, rfl, rfl⟩

end Cora.Compile
