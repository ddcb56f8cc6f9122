import Verif.Lemmas.Compile
/-
C36: the variables a compiled function captures are exactly its free local variables, each once, and its code refers
to nothing else.
-/
open Spec.Lang
namespace Cora.Compile

mutual
/-- the captured variables a piece of compiled code reads, by number -/
def Exp.caps : Exp → List Nat
  | .const _ => []
  | .global _ => []
  | .ref (.loc _) => []
  | .ref (.cap i) => [i]
  | .closure _ _ frees => frees.filterMap fun | .cap i => some i | .loc _ => none
  | .ite a b c => a.caps ++ b.caps ++ c.caps
  | .seq a b => a.caps ++ b.caps
  | .bind _ e b => e.caps ++ b.caps
  | .prim _ args => Exp.capss args
  | .app f args => f.caps ++ Exp.capss args
def Exp.capss : List Exp → List Nat
  | [] => []
  | e :: es => e.caps ++ Exp.capss es
end

mutual
/-- the local variables that a piece of compiled code reads and does not bind itself -/
def Exp.locals : Exp → List Sym
  | .const _ => []
  | .global _ => []
  | .ref (.loc x) => [x]
  | .ref (.cap _) => []
  | .closure _ _ frees => frees.filterMap fun | .cap _ => none | .loc x => some x
  | .ite a b c => a.locals ++ b.locals ++ c.locals
  | .seq a b => a.locals ++ b.locals
  | .bind x e b => e.locals ++ b.locals.filter fun y => decide (y ≠ x)
  | .prim _ args => Exp.localss args
  | .app f args => f.locals ++ Exp.localss args
def Exp.localss : List Exp → List Sym
  | [] => []
  | e :: es => e.locals ++ Exp.localss es
end

theorem index_lt {x : Sym} : ∀ {l : List Sym} {i : Nat}, index x l = some i → l[i]? = some x
  | [], i, h => by simp [index] at h
  | a :: b, i, h => by
    unfold index at h
    split at h
    · rename_i hx; simp only [Option.some.injEq] at h; simp [← h, hx]
    · simp only [Option.map_eq_some_iff] at h
      obtain ⟨j, hj, rfl⟩ := h
      simpa using index_lt hj

theorem index_none {x : Sym} : ∀ {l : List Sym}, index x l = none ↔ x ∉ l
  | [] => by simp [index]
  | a :: b => by
    unfold index
    split
    · rename_i hx; simp [hx]
    · rename_i hx; simp [index_none, hx]

theorem convVar_cap {fvs : List Sym} {x : Sym} {i : Nat} : convVar fvs x = .cap i → fvs[i]? = some x := by
  unfold convVar
  split
  · simp
  · rename_i j hj
    simp only [Ref.cap.injEq]
    rintro rfl
    exact index_lt hj

theorem convVar_loc {fvs : List Sym} {x y : Sym} : convVar fvs x = .loc y ↔ y = x ∧ x ∉ fvs := by
  unfold convVar
  split
  · rename_i h
    simp only [Ref.loc.injEq, index_none.mp h, not_false_eq_true, and_true, eq_comm]
  · rename_i j hj
    have : x ∈ fvs := by
      apply Classical.not_not.mp
      rw [← index_none, hj]; simp
    simp [this]

mutual
theorem conv_caps (fvs : List Sym) : ∀ (e : Exp1) (i : Nat), i ∈ (conv fvs e).caps → i < fvs.length
  | .const _, i => by simp [conv, Exp.caps]
  | .global _, i => by simp [conv, Exp.caps]
  | .loc x, i => by
    rw [conv]
    cases h : convVar fvs x with
    | loc y => simp [Exp.caps]
    | cap j =>
      simp only [Exp.caps, List.mem_singleton]
      rintro rfl
      exact (List.getElem?_eq_some_iff.mp (convVar_cap h)).1
  | .lam ps b, i => by
    simp only [conv, Exp.caps, List.mem_filterMap, List.mem_map]
    rintro ⟨r, ⟨x, _, rfl⟩, h⟩
    split at h
    · rename_i j hj
      simp only [Option.some.injEq] at h
      subst h
      exact (List.getElem?_eq_some_iff.mp (convVar_cap hj)).1
    · exact absurd h (by simp)
  | .ite a b c, i => by
    simp only [conv, Exp.caps, List.mem_append]
    rintro ((h | h) | h)
    · exact conv_caps fvs a i h
    · exact conv_caps fvs b i h
    · exact conv_caps fvs c i h
  | .seq a b, i => by
    simp only [conv, Exp.caps, List.mem_append]
    rintro (h | h)
    · exact conv_caps fvs a i h
    · exact conv_caps fvs b i h
  | .bind x e b, i => by
    simp only [conv, Exp.caps, List.mem_append]
    rintro (h | h)
    · exact conv_caps fvs e i h
    · exact conv_caps fvs b i h
  | .prim p args, i => by
    simp only [conv, Exp.caps]
    exact convs_caps fvs args i
  | .app f args, i => by
    simp only [conv, Exp.caps, List.mem_append]
    rintro (h | h)
    · exact conv_caps fvs f i h
    · exact convs_caps fvs args i h
theorem convs_caps (fvs : List Sym) : ∀ (es : List Exp1) (i : Nat), i ∈ Exp.capss (convs fvs es) → i < fvs.length
  | [], i => by simp [convs, Exp.capss]
  | e :: es, i => by
    simp only [convs, Exp.capss, List.mem_append]
    rintro (h | h)
    · exact conv_caps fvs e i h
    · exact convs_caps fvs es i h
end

mutual
theorem conv_locals (fvs : List Sym) : ∀ (e : Exp1) (x : Sym), x ∈ (conv fvs e).locals → x ∈ e.free ∧ x ∉ fvs
  | .const _, x => by simp [conv, Exp.locals]
  | .global _, x => by simp [conv, Exp.locals]
  | .loc y, x => by
    rw [conv]
    cases h : convVar fvs y with
    | cap j => simp [Exp.locals]
    | loc z =>
      simp only [Exp.locals, List.mem_singleton, Exp1.free]
      rintro rfl
      obtain ⟨rfl, h2⟩ := convVar_loc.mp h
      exact ⟨rfl, h2⟩
  | .lam ps b, x => by
    simp only [conv, Exp.locals, List.mem_filterMap, List.mem_map]
    rintro ⟨r, ⟨y, hy, rfl⟩, h⟩
    split at h
    · exact absurd h (by simp)
    · rename_i z hz
      simp only [Option.some.injEq] at h
      subst h
      obtain ⟨rfl, h2⟩ := convVar_loc.mp hz
      exact ⟨hy, h2⟩
  | .ite a b c, x => by
    simp only [conv, Exp.locals, List.mem_append, Exp1.free, mem_union, List.not_mem_nil, false_or]
    rintro ((h | h) | h)
    · exact ⟨.inl (.inl (conv_locals fvs a x h).1), (conv_locals fvs a x h).2⟩
    · exact ⟨.inl (.inr (conv_locals fvs b x h).1), (conv_locals fvs b x h).2⟩
    · exact ⟨.inr (conv_locals fvs c x h).1, (conv_locals fvs c x h).2⟩
  | .seq a b, x => by
    simp only [conv, Exp.locals, List.mem_append, Exp1.free, mem_union, List.not_mem_nil, false_or]
    rintro (h | h)
    · exact ⟨.inl (conv_locals fvs a x h).1, (conv_locals fvs a x h).2⟩
    · exact ⟨.inr (conv_locals fvs b x h).1, (conv_locals fvs b x h).2⟩
  | .bind y e b, x => by
    simp only [conv, Exp.locals, List.mem_append, List.mem_filter, Exp1.free, mem_union, mem_diff,
      List.mem_singleton, decide_eq_true_eq]
    rintro (h | h)
    · exact ⟨.inl (conv_locals fvs e x h).1, (conv_locals fvs e x h).2⟩
    · exact ⟨.inr ⟨(conv_locals fvs b x h.1).1, h.2⟩, (conv_locals fvs b x h.1).2⟩
  | .prim p args, x => by
    simp only [conv, Exp.locals, Exp1.free]
    exact convs_locals fvs args x
  | .app f args, x => by
    simp only [conv, Exp.locals, List.mem_append, Exp1.free, mem_frees_acc (acc := union [] f.free), mem_union,
      List.not_mem_nil, false_or]
    rintro (h | h)
    · exact ⟨.inl (conv_locals fvs f x h).1, (conv_locals fvs f x h).2⟩
    · exact ⟨.inr (convs_locals fvs args x h).1, (convs_locals fvs args x h).2⟩
theorem convs_locals (fvs : List Sym) : ∀ (es : List Exp1) (x : Sym), x ∈ Exp.localss (convs fvs es) →
    x ∈ Exp1.frees [] es ∧ x ∉ fvs
  | [], x => by simp [convs, Exp.localss]
  | e :: es, x => by
    simp only [convs, Exp.localss, List.mem_append, Exp1.frees, mem_frees_acc (acc := union [] e.free), mem_union,
      List.not_mem_nil, false_or]
    rintro (h | h)
    · exact ⟨.inl (conv_locals fvs e x h).1, (conv_locals fvs e x h).2⟩
    · exact ⟨.inr (convs_locals fvs es x h).1, (convs_locals fvs es x h).2⟩
end

/-- **C36.** A lambda is compiled, in the scope of the local variables `scope`, by a function that itself has captured
`outer`. The closure made for it lists, each once, exactly the local variables that occur free in the lambda. The code
of the closure reads no captured variable beyond them and no local variable other than its own parameters (and what
it binds itself).
Assumed: no local variable is named like a primitive (see `C36_primitive_name`), and the symbols the compiler generates
are new. -/
theorem C36_captured_partial (ps : List Sym) (b : Core) (scope outer : List Sym) (k k' : Nat) (e : Exp1)
    (hparse : parse scope (.lam ps b) k = some (e, k'))
    (hnew : Below k (Core.lam ps b).syms ∧ Below k scope)
    (hprims : NoPrims (Core.lam ps b).binders ∧ NoPrims scope) :
    ∃ (vars : List Sym) (body : Exp), conv outer e = .closure ps body (vars.map (convVar outer)) ∧
      vars.Nodup ∧ (∀ x, x ∈ vars ↔ x ∈ (Core.lam ps b).fv ∧ x ∈ scope) ∧
      (∀ i ∈ body.caps, i < vars.length) ∧ ∀ x ∈ body.locals, x ∈ ps := by
  have hfree := parse_free (.lam ps b) hparse ⟨hnew.1, hnew.2, hprims.1, hprims.2⟩
  obtain ⟨b', hb, rfl⟩ := parse_lam hparse
  refine ⟨(Exp1.lam ps b').free, conv (Exp1.lam ps b').free b', by rw [conv], free_nodup _, hfree,
    fun i hi => conv_caps _ _ i hi, fun x hx => ?_⟩
  have h := conv_locals _ _ x hx
  rw [Exp1.free, mem_diff] at h
  exact Classical.not_not.mp fun hn => h.2 ⟨h.1, hn⟩

/-- `(lambda (x) (if (if x y z) (f x y) z))` where `y`, `z` are local -/
def captureExample : Core :=
  .lam [.named "x"] (.ite (.ite (.var (.named "x")) (.var (.named "y")) (.var (.named "z")))
    (.app (.var (.named "f")) [.var (.named "x"), .var (.named "y")]) (.var (.named "z")))

example : ∃ e k', parse [.named "y", .named "z", .named "u"] captureExample 0 = some (e, k') ∧
    e.free = [.named "y", .named "z"] := ⟨_, _, rfl, by decide +kernel⟩

example : Below 0 captureExample.syms ∧ Below 0 [Sym.named "y", .named "z", .named "u"] ∧
    NoPrims captureExample.binders ∧ NoPrims [Sym.named "y", .named "z", .named "u"] := by
  refine ⟨?_, ?_, ?_, ?_⟩
  · intro n; simp [captureExample, Core.syms, Core.symss]
  · intro n; simp
  · unfold NoPrims; decide +kernel
  · unfold NoPrims; decide +kernel

/-- Disagreement with C36: `(lambda (car) (lambda (x) (car x)))`. The inner function does not capture the local
variable `car` that it calls: in operator position the name always means the primitive. -/
theorem C36_primitive_name : ∃ (b : Core) (scope : List Sym) (e : Exp1) (k' : Nat) (body : Exp),
    parse scope (.lam [.named "x"] b) 0 = some (e, k') ∧
    .named "car" ∈ (Core.lam [.named "x"] b).fv ∧ .named "car" ∈ scope ∧
    conv [] e = .closure [.named "x"] body [] :=
  ⟨.app (.var (.named "car")) [.var (.named "x")], [.named "car"], _, _, _, rfl, by decide +kernel, by decide +kernel,
    rfl⟩

end Cora.Compile
