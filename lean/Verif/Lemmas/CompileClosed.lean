import Verif.Lemmas.CompileTail
import Verif.Lemmas.CompileMachine
/-
The functions that `tailify` makes read only their own variables.
-/
open Spec.Lang
namespace Cora.Compile

/-- reads only the variables `T`, and so do the functions in it with their parameters -/
def Stm.closed (T : List Sym) (s : Stm) : Prop := s.wf ∧ ∀ x ∈ s.free, x ∈ T

/-- the same for operands -/
def Smp.closed (T : List Sym) (e : Smp) : Prop := e.wf ∧ ∀ x ∈ e.free, x ∈ T

/-- the same for several -/
def Smp.closeds (T : List Sym) (es : List Smp) : Prop := Smp.wfs es ∧ ∀ x ∈ Smp.frees [] es, x ∈ T

theorem smp_closed_mono {T T' : List Sym} {e : Smp} (h : e.closed T) (hs : ∀ x ∈ T, x ∈ T') : e.closed T' :=
  ⟨h.1, fun x hx => hs x (h.2 x hx)⟩

theorem closeds_cons {T : List Sym} {e : Smp} {es : List Smp} (h : e.closed T) (hs : Smp.closeds T es) :
    Smp.closeds T (e :: es) :=
  ⟨⟨h.1, hs.1⟩, fun x hx => (mem_sfrees_cons.mp hx).elim (h.2 x) (hs.2 x)⟩

/-- what `next` makes is closed -/
def NextClosed (T : List Sym) (g : Smp → Nat → Stm × Nat) : Prop :=
  ∀ ra k T', (∀ x ∈ T, x ∈ T') → ra.closed T' → (g ra k).1.closed T'

/-- the same for lists -/
def NextsClosed (T : List Sym) (g : List Smp → Nat → Stm × Nat) : Prop :=
  ∀ ra k T', (∀ x ∈ T, x ∈ T') → Smp.closeds T' ra → (g ra k).1.closed T'

theorem nextClosed_mono {T T' : List Sym} {g : Smp → Nat → Stm × Nat} (h : NextClosed T g) (hs : ∀ x ∈ T, x ∈ T') :
    NextClosed T' g := fun ra k T2 h2 hr => h ra k T2 (fun x hx => h2 x (hs x hx)) hr

theorem nextsClosed_mono {T T' : List Sym} {g : List Smp → Nat → Stm × Nat} (h : NextsClosed T g) (hs : ∀ x ∈ T, x ∈ T') :
    NextsClosed T' g := fun ra k T2 h2 hr => h ra k T2 (fun x hx => h2 x (hs x hx)) hr

theorem ref_free_ok {S : List Sym} {n : Nat} {r : Ref} (h : r.ok S n) : ∀ x ∈ r.free, x ∈ S := by
  intro x hx
  cases r with
  | loc y =>
    simp only [Ref.free, List.mem_singleton] at hx
    subst hx
    exact h
  | cap i => simp [Ref.free] at hx

mutual
theorem tailify_closed : ∀ (e : Exp) {S : List Sym} {n : Nat} {T : List Sym} {next : Next} {k : Nat}, e.tidy S n →
    (∀ x ∈ S, x ∈ T) → NextClosed T next.ap → (tailify e next k).1.closed T
  | .const d, _, _, T, _, _, _, _, h => by
    rw [tailify]; exact h _ _ T (fun _ h => h) ⟨trivial, by simp [Smp.free]⟩
  | .global x, _, _, T, _, _, _, _, h => by
    rw [tailify]; exact h _ _ T (fun _ h => h) ⟨trivial, by simp [Smp.free]⟩
  | .ref r, _, _, T, _, _, ht, hs, h => by
    rw [tailify]
    refine h _ _ T (fun _ h => h) ⟨trivial, fun x hx => ?_⟩
    simp only [Exp.tidy] at ht
    simp only [Smp.free] at hx
    exact hs x (ref_free_ok ht x hx)
  | .closure ps body frees, S, _, T, _, k, ht, hs, h => by
    rw [tailify]
    simp only [Exp.tidy] at ht
    have h1 : (tailify body .id k).1.closed ps := tailify_closed body ht.1 (fun _ h => h) fun ra k T' _ hr =>
      ⟨hr.1, by simpa only [Next.ap, Stm.free] using hr.2⟩
    refine h _ _ T (fun _ h => h) ⟨⟨h1.2, h1.1⟩, fun x hx => ?_⟩
    simp only [Smp.free, mem_foldl_refs, mem_union, mem_diff, List.not_mem_nil, false_or] at hx
    rcases hx with ⟨hx, hn⟩ | ⟨r, hr, hx⟩
    · exact absurd (h1.2 x hx) hn
    · exact hs x (ref_free_ok (ht.2 r hr) x hx)
  | .ite a b c, S, _, T, next, k, ht, hs, h => by
    rw [tailify]
    simp only [Exp.tidy] at ht
    refine tailify_closed a ht.1 hs fun ra k T' hT hr => ?_
    simp only [Next.ap]
    have hb := tailify_closed b (k := k) ht.2.1 (fun x hx => hT x (hs x hx)) (nextClosed_mono h hT)
    have hc := tailify_closed c (k := (tailify b next k).2) ht.2.2 (fun x hx => hT x (hs x hx)) (nextClosed_mono h hT)
    refine ⟨⟨hr.1, hb.1, hc.1⟩, fun x hx => ?_⟩
    simp only [Stm.free, mem_union, List.not_mem_nil, false_or] at hx
    rcases hx with (hx | hx) | hx
    · exact hr.2 x hx
    · exact hb.2 x hx
    · exact hc.2 x hx
  | .seq a b, S, _, T, next, k, ht, hs, h => by
    rw [tailify]
    simp only [Exp.tidy] at ht
    refine tailify_closed a ht.1 hs fun ra k T' hT hr => ?_
    simp only [Next.ap]
    have hb := tailify_closed b (k := k) ht.2 (fun x hx => hT x (hs x hx)) (nextClosed_mono h hT)
    split
    · exact hb
    · refine ⟨⟨hr.1, hb.1⟩, fun x hx => ?_⟩
      simp only [Stm.free, mem_union, List.not_mem_nil, false_or] at hx
      exact hx.elim (hr.2 x) (hb.2 x)
  | .bind y e b, S, _, T, next, k, ht, hs, h => by
    rw [tailify]
    simp only [Exp.tidy] at ht
    refine tailify_closed e ht.2.1 hs fun ra k T' hT hr => ?_
    simp only [Next.ap]
    have hb := tailify_closed b (k := k) (T := y :: T') ht.2.2 (fun x hx => by
      simp only [List.mem_cons] at hx ⊢
      exact hx.imp id fun hx => hT x (hs x hx)) (nextClosed_mono h fun x hx => by simp [hT x hx])
    refine ⟨⟨hr.1, hb.1⟩, fun x hx => ?_⟩
    simp only [Stm.free, mem_union, mem_diff, List.mem_singleton] at hx
    rcases hx with hx | ⟨hx, hn⟩
    · exact hr.2 x hx
    · exact (List.mem_cons.mp (hb.2 x hx)).resolve_left hn
  | .prim p args, S, _, T, next, k, ht, hs, h => by
    rw [tailify]
    simp only [Exp.tidy] at ht
    refine tailifyList_closed args ht hs fun rs k T' hT hr => ?_
    have h1 := h (.ref (.loc (.gen k))) (k + 1) (.gen k :: T') (fun x hx => by simp [hT x hx])
      ⟨trivial, by simp [Smp.free, Ref.free]⟩
    refine ⟨⟨hr.1, h1.1⟩, fun x hx => ?_⟩
    simp only [finishPrim, Stm.free, mem_union, mem_diff, List.mem_singleton] at hx
    rcases hx with hx | ⟨hx, hn⟩
    · exact hr.2 x hx
    · exact (List.mem_cons.mp (h1.2 x hx)).resolve_left hn
  | .app f args, S, _, T, next, k, ht, hs, h => by
    rw [tailify]
    simp only [Exp.tidy] at ht
    refine tailify_closed f ht.1 hs fun ra k T' hT hr => ?_
    simp only [Next.ap]
    refine tailifyList_closed args ht.2.1 (fun x hx => hT x (hs x hx)) fun rs k T2 hT2 hrs => ?_
    have hr2 := smp_closed_mono hr hT2
    unfold finishCall
    cases next with
    | id =>
      refine ⟨⟨hr2.1, hrs.1⟩, fun x hx => ?_⟩
      simp only [Stm.free, mem_sfrees_acc (acc := union [] ra.free), mem_union, List.not_mem_nil, false_or] at hx
      exact hx.elim (hr2.2 x) (hrs.2 x)
    | fn g =>
      have h1 := h (.ref (.loc (.gen k))) (k + 1) (.gen k :: T2) (fun x hx => by simp [hT2 x (hT x hx)])
        ⟨trivial, by simp [Smp.free, Ref.free]⟩
      refine ⟨⟨hr2.1, hrs.1, h1.1⟩, fun x hx => ?_⟩
      rcases mem_call_free.mp hx with hx | hx | ⟨hx, hn⟩
      · exact hr2.2 x hx
      · exact hrs.2 x hx
      · exact (List.mem_cons.mp (h1.2 x hx)).resolve_left hn
theorem tailifyList_closed : ∀ (es : List Exp) {S : List Sym} {n : Nat} {T : List Sym} {g : List Smp → Nat → Stm × Nat}
    {k : Nat}, Exp.tidys S n es → (∀ x ∈ S, x ∈ T) → NextsClosed T g → (tailifyList es g k).1.closed T
  | [], _, _, T, _, _, _, _, h => by
    rw [tailifyList]; exact h _ _ T (fun _ h => h) ⟨trivial, by simp [Smp.frees]⟩
  | e :: es, S, _, T, g, k, ht, hs, h => by
    rw [tailifyList]
    simp only [Exp.tidys] at ht
    refine tailify_closed e ht.1 hs fun ra k T' hT hr => ?_
    simp only [Next.ap]
    refine tailifyList_closed es ht.2.1 (fun x hx => hT x (hs x hx)) fun rs k T2 hT2 hrs => ?_
    exact h _ k T2 (fun x hx => hT2 x (hT x hx)) (closeds_cons (smp_closed_mono hr hT2) hrs)
end

end Cora.Compile
