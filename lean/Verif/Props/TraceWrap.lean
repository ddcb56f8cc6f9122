import Verif.Lemmas.Traced
/-
C92: tracing functions does not change what a program does, records the calls, and can be undone.
-/
open Spec.Machine
namespace Cora.VM

variable {W : Type} {tw : Nat}

/-! ### programs -/

theorem SameF.symm {f g : AFrame} (h : SameF tw f g) : SameF tw g f := by
  cases f <;> cases g <;> try exact h.elim
  · obtain ⟨h1, nf, nr, d, d', rs, rs', e1, e2, h2, h3⟩ := h
    exact ⟨h1.symm, nf, nr, d', d, rs', rs, e2, e1, h2.symm, h3.1.symm, fun i v v' a b => (h3.2 i v' v b a).symm⟩
  · have h : SameL tw _ _ := h
    exact ⟨h.1.symm, fun i v v' a b => (h.2 i v' v b a).symm⟩
  · trivial
  · exact Same.symm h

theorem SameFs.symm {f g : List AFrame} (h : SameFs tw f g) : SameFs tw g f := by
  induction f generalizing g with
  | nil => cases g with
    | nil => trivial
    | cons => exact h.elim
  | cons a f ih => cases g with
    | nil => exact h.elim
    | cons b g => exact ⟨SameF.symm h.1, ih h.2⟩

theorem SameSt.symm {R : W → W → Prop} (hR : ∀ w w', R w w' → R w' w) {s t : ASt W} (h : SameSt tw R s t) : SameSt tw R t s := by
  refine ⟨SameF.symm h.cur, h.res.symm, SameFs.symm h.stack, h.len.symm, fun i k k' a b => ?_, hR _ _ h.w⟩
  have := h.conts i k' k b a
  cases k <;> cases k' <;> try exact this.elim
  · trivial
  · exact ⟨SameFs.symm this.1, this.2.symm⟩

/-- a program that never comes to a traced function runs as on the machine without them -/
theorem quiet {sem : Sem W} {k : Nat} {ns : List Val} {s s' : ASt W} (h : TReach tw sem k ns s s')
    (hn : ∀ k a, AReach sem k s a → ∀ l r, a.cur ≠ .code (.user tw) l r) : AReach sem k s s' := by
  induction h with
  | zero s => exact .zero s
  | succ k ns ns' s s1 s2 _ h2 ih =>
    cases h2 with
    | plain _ _ _ h5 => exact .succ k _ _ _ (ih hn) h5
    | traced l nf nr gn gr c gd rs ns sym _ _ hc => exact absurd hc (hn k s1 (ih hn) _ _)

/-- C92, programs. A program runs on the virtual machine with some of its functions traced. The same program without traced functions
runs on the abstract machine. Both do the same: after any number of steps the states are the same but for tracing, and if one stops, so
does the other. In particular results without functions in them are equal. `hspan`: as in `C23_control_partial`; `hfits`: the names of
the traced functions are short. `_partial`: with long names the statement is false (`C92_long_name_wrong`). -/
theorem C92_program_partial (malloc : List Nat → Nat) (hmal : ∀ h, ∀ s ∈ h, malloc h + 256 ≤ s ∨ s + 256 ≤ malloc h) (fits : Val → Bool)
    (R : W → W → Prop) (hR : ∀ w w', R w w' → R w' w) (sem : Sem W) (hblind : Blind tw R sem)
    (b n n' : Nat) (regs regs' : List Val) (res res' : Val) (w w' : W) (hregs : regs.length < 256)
    (hsame : SameSt tw R (aboot n regs res w) (aboot n' regs' res' w'))
    (hquiet : ∀ k a, AReach sem k (aboot n' regs' res' w') a → ∀ l r, a.cur ≠ .code (.user tw) l r)
    (hfits : ∀ k ns a, TReach tw sem k ns (aboot n regs res w) a → ∀ v ∈ ns, fits v = true)
    (hspan : ∀ m k c ns, runT tw fits malloc sem m k (boot b n regs res w) = some (c, ns) → Spans c.data (c.ctx :: c.callstack)) (k : Nat) :
    (∃ m c ns a a', runT tw fits malloc sem m k (boot b n regs res w) = some (c, ns) ∧ View c a ∧
      AReach sem k (aboot n' regs' res' w') a' ∧ SameSt tw R a a' ∧ (Plainly c.res → a'.res = c.res)) ∨
    (∃ j m c ns a a', j < k ∧ runT tw fits malloc sem m j (boot b n regs res w) = some (c, ns) ∧ View c a ∧
      AReach sem j (aboot n' regs' res' w') a' ∧ SameSt tw R a a' ∧ (Plainly c.res → a'.res = c.res) ∧ ¬ ∃ a'', AStep sem a' a'') := by
  rcases runT_rel malloc hmal fits sem b n regs res w hregs hfits hspan k with
    ⟨m, c, ns, a, h1, h2, h3⟩ | ⟨j, m, c, ns, a, hj, h1, h2, h3, h4⟩
  · obtain ⟨ns', a', g1, g2⟩ := reach_same hblind hsame h2
    refine .inl ⟨m, c, ns, a, a', h1, h3.view, quiet g1 hquiet, g2, fun hp => ?_⟩
    have := g2.res
    rw [h3.res] at this
    exact same_plainly hp this
  · obtain ⟨ns', a', g1, g2⟩ := reach_same hblind hsame h2
    refine .inr ⟨j, m, c, ns, a, a', hj, h1, h3.view, quiet g1 hquiet, g2, fun hp => ?_, fun ⟨a'', g3⟩ => ?_⟩
    · have := g2.res
      rw [h3.res] at this
      exact same_plainly hp this
    · obtain ⟨ns2, a2, g4, _⟩ := step_same hblind (SameSt.symm hR g2) (.plain a' a'' (hquiet _ _ (quiet g1 hquiet)) g3)
      exact h4 ⟨ns2, a2, g4⟩

/-- C92, long names: a call of a traced function whose name does not fit traps. -/
theorem C92_long_name_wrong (malloc : List Nat → Nat) (fits : Val → Bool) (sem : Sem W) (n nf nr : Nat) (origin sym : Val) (c : Cora W)
    (hfn : c.ctx.fn = some (.user tw)) (hr : c.mem c.ctx.bp = .native (.user tw) nf nr [origin, sym]) (hs : fits sym = false) :
    stepT tw fits malloc sem n c = none := by
  cases n with
  | zero => rfl
  | succ n =>
    unfold stepT
    rw [if_pos hfn, hr]
    split
    · cases origin <;> simp [hs]
    · rfl

/-! ### what is recorded -/

/-- C92, records. When a traced function has been called, the next step records its name, once, and then what the function it holds
records; when another function has been called, or the machine does anything else, nothing is recorded. -/
theorem C92_recorded (sem : Sem W) (s s1 s2 : ASt W) (ns : List Val) (hs : TStep tw sem ns s1 s2) :
    (∀ nf nr g sym args, Enter (.native (.user tw) nf nr [g, sym]) args s s1 → ∃ ns' c gn gr gd, ns = sym :: ns' ∧ g = .native c gn gr gd ∧
      (c ≠ .user tw → ns' = [])) ∧
    (∀ c nf nr d args, c ≠ .user tw → Enter (.native c nf nr d) args s s1 → ns = []) ∧
    ((∀ l r, s1.cur ≠ .code (.user tw) l r) → ns = []) := by
  have hq : ∀ {ns : List Val} {s1 s2 : ASt W}, TStep tw sem ns s1 s2 → (∀ l r, s1.cur ≠ .code (.user tw) l r) → ns = [] := by
    intro ns s1 s2 hs h
    cases hs with
    | plain => rfl
    | traced l nf nr gn gr c gd rs ns sym _ _ hc => exact absurd hc (h _ _)
  refine ⟨fun nf nr g sym args he => ?_, fun c nf nr d args hc he => ?_, hq hs⟩
  · generalize hf : Val.native (.user tw) nf nr [g, sym] = f at he
    obtain ⟨c, nf', nr', d, junk, _, e1, e2, e3, e4⟩ := he
    rw [← hf] at e1
    injection e1 with e5 e6 e7 e8
    subst e5 e6 e7 e8
    cases hs with
    | plain _ _ hp => exact absurd rfl (hp _ _)
    | traced l nf1 nr1 gn gr c gd rs ns sym1 _ _ hc ht =>
      rw [← hf] at hc
      injection hc with e5 e6 e7
      injection e7 with e7 e8
      injection e7 with _ e9 e10 e11
      injection e11 with e11 e12
      injection e12 with e12 _
      subst e12
      exact ⟨ns, c, gn, gr, gd, rfl, e11, fun hne => hq ht fun l r e => by injection e with e; exact hne e⟩
  · refine hq hs ?_
    generalize hf : Val.native c nf nr d = f at he
    obtain ⟨c', nf', nr', d', junk, _, e1, e2, e3, e4⟩ := he
    rw [← hf] at e1
    injection e1 with e5
    subst e5
    intro l r e
    injection e with e
    exact hc e

/-! ### tracing and untracing -/

/-- C92, tracing: the function is replaced by one that is the same but for tracing; no other global changes; and untracing gives back
the function and the globals as they were. -/
theorem C92_untrace (g g1 : Nat → Val) (s : Nat) (h : builtinTrace tw g s = some g1) :
    (∀ x, x ≠ s → g1 x = g x) ∧ g1 s ≠ g s ∧ (∀ x, Same tw (g x) (g1 x)) ∧ builtinUntrace tw g1 s = some (g, g s) := by
  unfold builtinTrace at h
  split at h
  · rename_i c nf nr d hg
    split at h
    · injection h with h
      subst h
      refine ⟨fun x hx => if_neg hx, ?_, fun x => ?_, ?_⟩
      · simp only [if_pos, hg]
        intro e
        injection e with _ _ _ e
        have := congrArg sizeOf e
        simp at this
        omega
      · by_cases hx : x = s
        · subst hx
          simp only [if_pos, hg]
          exact .right c nf nr d _ _ (.refl _)
        · simp only [if_neg hx]
          exact .refl _
      · unfold builtinUntrace
        simp only [if_pos, and_self, hg, Option.some.injEq, Prod.mk.injEq, and_true]
        funext y
        by_cases hy : y = s
        · subst hy; simp [hg]
        · simp [hy]
    · cases h
  · cases h

/-- C92, untracing a function that is not traced under this name changes nothing and gives `()` -/
theorem C92_untrace_untraced (g : Nat → Val) (s : Nat) (c : Code) (nf nr : Nat) (d : List Val) (hg : g s = .native c nf nr d)
    (hn : c = .user tw → ∀ f, d ≠ [f, .other s]) : builtinUntrace tw g s = some (g, .nil) := by
  unfold builtinUntrace
  rw [hg]
  simp only
  split
  · split
    · rename_i d0 _ x
      by_cases h : c = .user tw ∧ x = s
      · obtain ⟨h1, rfl⟩ := h
        exact absurd rfl (hn h1 d0)
      · rw [if_neg h]
    · rfl
  · rfl

/-- C92, tracing needs a function: it works exactly for functions, and functions have frames -/
theorem C92_trace_works (g : Nat → Val) (s : Nat) : (∃ g1, builtinTrace tw g s = some g1) ↔ ∃ c nf nr d, g s = .native c nf nr d ∧ 0 < nf := by
  unfold builtinTrace
  cases hg : g s with
  | native c nf nr d =>
    simp only
    by_cases h : nf > 0
    · rw [if_pos h]; exact ⟨fun _ => ⟨c, nf, nr, d, rfl, h⟩, fun _ => ⟨_, rfl⟩⟩
    · rw [if_neg h]
      exact ⟨fun ⟨_, e⟩ => (by cases e), fun ⟨c', nf', nr', d', e, h'⟩ => by injection e with _ e; omega⟩
  | _ => exact ⟨fun ⟨_, e⟩ => (by cases e), fun ⟨c', nf', nr', d', e, h'⟩ => by cases e⟩

/-! ### a program -/

/-- the main function calls global 1 with 5 and returns what it gets; function 1 returns its argument with what it has captured -/
def demo : Sem (Nat → Val) := fun n l r v w =>
  match n, l with
  | 0, 0 => some ⟨r, .call 1 (w 1) [.other 5], w⟩
  | 0, _ => some ⟨r, .ret v, w⟩
  | 1, _ =>
    match r with
    | .native _ _ _ (y :: _) :: x :: _ => some ⟨r, .ret (.cons x y), w⟩
    | _ => none
  | _, _ => none

def demoMain : Val := .native (.user 0) 1 0 []
def demoGlobals : Nat → Val := fun x => if x = 1 then .native (.user 1) 2 1 [.other 7] else .nil
def demoTraced : Nat → Val := (builtinTrace 9 demoGlobals 1).getD fun _ => .nil
def sameGlobals (g g' : Nat → Val) : Prop := ∀ x, Same 9 (g x) (g' x)

/-- the traced run: the result is `(5 . 7)`, and the name is recorded -/
example : ((runT 9 (fun _ => true) bump demo 3 3 (boot 0 0 [demoMain] .nil demoTraced)).map fun p => (p.1.ctx.fn, p.2.length)) = some (none, 1) ∧
    ((runT 9 (fun _ => true) bump demo 3 3 (boot 0 0 [demoMain] .nil demoTraced)).map fun p => (p.1.res, p.2)) =
      some (.cons (.other 5) (.other 7), [.other 1]) := ⟨by rfl, by rfl⟩

theorem demo_blind : Blind 9 sameGlobals demo := by
  intro n hn l nf nr d d' rs rs' v v' w w' hd hrs hv hw o ho
  unfold demo at ho ⊢
  split at ho
  · injection ho with ho
    subst ho
    exact ⟨_, rs, rs', rfl, rfl, rfl, hrs, ⟨rfl, hw 1, .refl _⟩, hw⟩
  · injection ho with ho
    subst ho
    rename_i hl
    refine ⟨⟨.native (.user 0) nf nr d' :: rs', .ret v', w'⟩, rs, rs', ?_, rfl, rfl, hrs, hv, hw⟩
    cases l with
    | zero => exact absurd rfl hl
    | succ l => rfl
  · split at ho
    · rename_i heq
      injection heq with e1 e2
      injection e1 with _ _ _ e1
      subst e1 e2
      injection ho with ho
      subst ho
      obtain ⟨y', m, rfl, h1, h2⟩ := hd.cons_inv
      obtain ⟨x', m', rfl, h3, h4⟩ := hrs.cons_inv
      exact ⟨_, _, _, rfl, rfl, rfl, hrs, .cons _ _ _ _ h3 h1, hw⟩
    · cases ho
  · cases ho

theorem spans_one (fs : List Frame) (h : ∀ f ∈ fs, f.sp < 256) : Spans [0] fs := by
  induction fs with
  | nil => trivial
  | cons f fs ih =>
    exact ⟨⟨0, [], rfl, Nat.zero_le _, by have := h f (by simp); omega⟩, .inl (ih fun g hg => h g (by simp [hg]))⟩

/-- the states of the untraced program -/
def DemoState (a : ASt (Nat → Val)) : Prop :=
  a.w = demoGlobals ∧
  ((∃ r, a.cur = .code (.user 0) 0 r ∧ a.stack = [.exit]) ∨ (∃ r r', a.cur = .code (.user 1) 0 r ∧ a.stack = [.code (.user 0) 1 r', .exit]) ∨
    (∃ r, a.cur = .code (.user 0) 1 r ∧ a.stack = [.exit]) ∨ a.cur = .exit)

theorem demo_quiet : ∀ k a, AReach demo k (aboot 0 [demoMain] .nil demoGlobals) a → ∀ l r, a.cur ≠ .code (.user 9) l r := by
  have step : ∀ a a', DemoState a → AStep demo a a' → DemoState a' := by
    rintro a a' ⟨hw, ⟨r, hc, hst⟩ | ⟨r, r', hc, hst⟩ | ⟨r, hc, hst⟩ | hc⟩ hs
    · cases hs with
      | call n l regs o l' f args _ _ hc' h1 h2 h3 h4 =>
        rw [hc] at hc'
        injection hc' with e1 e2 e3
        injection e1 with e1
        subst e1 e2 e3
        injection h1 with h1
        subst h1
        injection h3 with e1 e2 e3
        subst e1 e2 e3
        rw [hw] at h4
        cases h4 with
        | exact _ _ _ _ he =>
          generalize hf : demoGlobals 1 = f at he
          obtain ⟨c, nf, nr, d, junk, _, e1, _, _, _⟩ := he
          rw [← hf] at e1
          injection e1 with e1
          subst e1
          exact ⟨hw ▸ rfl, .inr (.inl ⟨_, _, rfl, by rw [hst]⟩)⟩
        | _ => simp_all
      | _ => simp_all [demo] <;> grind
    · cases hs with
      | ret n l regs o v _ _ hc' h1 h2 h3 h4 =>
        cases h4 with
        | mk f fs e =>
          rw [hc] at hc'
          injection hc' with e1 e2 e3
          injection e1 with e1
          subst e1 e2 e3
          have how : o.w = a.w := by
            unfold demo at h1
            simp only at h1
            split at h1
            · injection h1 with h1; subst h1; rfl
            · cases h1
          simp only [hst, List.cons.injEq] at e
          obtain ⟨rfl, rfl⟩ := e
          exact ⟨how.trans hw, .inr (.inr (.inl ⟨_, rfl, rfl⟩))⟩
      | tail n l regs o f args _ _ hc' h1 h2 h3 h4 =>
        rw [hc] at hc'
        injection hc' with e1 e2 e3
        injection e1 with e1
        subst e1 e2 e3
        unfold demo at h1
        simp only at h1
        split at h1
        · injection h1 with h1; subst h1; cases h3
        · cases h1
      | call n l regs o l' f args _ _ hc' h1 h2 h3 h4 =>
        rw [hc] at hc'
        injection hc' with e1 e2 e3
        injection e1 with e1
        subst e1 e2 e3
        unfold demo at h1
        simp only at h1
        split at h1
        · injection h1 with h1; subst h1; cases h3
        · cases h1
      | _ => simp_all
    · cases hs with
      | ret n l regs o v _ _ hc' h1 h2 h3 h4 =>
        cases h4 with
        | mk f fs e =>
          rw [hc] at hc'
          injection hc' with e1 e2 e3
          injection e1 with e1
          subst e1 e2 e3
          injection h1 with h1
          subst h1
          simp only [hst, List.cons.injEq] at e
          obtain ⟨rfl, rfl⟩ := e
          exact ⟨hw, .inr (.inr (.inr rfl))⟩
      | _ => simp_all [demo] <;> grind
    · exact (exit_stuck hc hs).elim
  have all : ∀ k a, AReach demo k (aboot 0 [demoMain] .nil demoGlobals) a → DemoState a := by
    intro k
    induction k with
    | zero => intro a h; cases h; exact ⟨rfl, .inl ⟨_, rfl, rfl⟩⟩
    | succ k ih => intro a h; cases h with | succ _ _ a1 _ h1 h2 => exact step a1 a (ih a1 h1) h2
  intro k a h l r e
  rcases (all k a h).2 with ⟨_, hc, _⟩ | ⟨_, _, hc, _⟩ | ⟨_, hc, _⟩ | hc <;> rw [hc] at e <;> cases e

theorem demo_spans : ∀ m k c ns, runT 9 (fun _ => true) bump demo m k (boot 0 0 [demoMain] .nil demoTraced) = some (c, ns) →
    Spans c.data (c.ctx :: c.callstack) := by
  have none_ : ∀ m k, runT 9 (fun _ => true) bump demo m (k + 4) (boot 0 0 [demoMain] .nil demoTraced) = none := by
    intro m k
    induction k with
    | zero =>
      match m with
      | 0 => rfl
      | 1 => rfl
      | m + 2 => rfl
    | succ k ih => show runT 9 _ bump demo m ((k + 4) + 1) _ = none; unfold runT; rw [ih]; rfl
  have use : ∀ (o : Option (Cora (Nat → Val) × List Val)) c ns, o = some (c, ns) →
      (o.map fun p => (p.1.data, (p.1.ctx :: p.1.callstack).map (·.sp)))
        ∈ [some ([0], [1, 1]), some ([0], [3, 1, 1]), some ([0], [1, 1]), some ([0], [1])] → Spans c.data (c.ctx :: c.callstack) := by
    intro o c ns e h
    subst e
    have hd : c.data = [0] ∧ ∀ x ∈ (c.ctx :: c.callstack).map (·.sp), x < 256 := by
      simp only [Option.map_some, List.mem_cons, Option.some.injEq, Prod.mk.injEq, List.not_mem_nil, or_false] at h
      rcases h with ⟨h1, h2⟩ | ⟨h1, h2⟩ | ⟨h1, h2⟩ | ⟨h1, h2⟩ <;> exact ⟨h1, by rw [h2]; decide⟩
    rw [hd.1]
    exact spans_one _ fun f hf => hd.2 _ (List.mem_map_of_mem hf)
  intro m k c ns h
  match k with
  | k + 4 => rw [none_] at h; cases h
  | 0 => exact use _ c ns h (by simp [runT, boot])
  | 1 =>
    match m with
    | 0 => cases h
    | m + 1 => exact use _ c ns h (.tail _ (.head _))
  | 2 =>
    match m with
    | 0 => cases h
    | 1 => cases h
    | m + 2 => exact use _ c ns h (.tail _ (.tail _ (.head _)))
  | 3 =>
    match m with
    | 0 => cases h
    | 1 => cases h
    | m + 2 => exact use _ c ns h (.tail _ (.tail _ (.tail _ (.head _))))

/-- non-vacuity: the program meets the hypotheses of `C92_program_partial` -/
example (k : Nat) := C92_program_partial bump bump_fresh (fun _ => true) sameGlobals (fun _ _ h x => (h x).symm) demo demo_blind 0 0 0
  [demoMain] [demoMain] .nil .nil demoTraced demoGlobals (by decide)
  ⟨⟨rfl, 1, 0, [], [], [], [], rfl, rfl, .refl _, .nil⟩, .nil, ⟨trivial, trivial⟩, rfl, fun i k k' h => by simp [aboot] at h,
    fun x => ((C92_untrace demoGlobals demoTraced 1 rfl).2.2.1 x).symm⟩
  demo_quiet (fun _ _ _ _ _ _ => rfl) demo_spans k

end Cora.VM
