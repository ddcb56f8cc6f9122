import Verif.Lemmas.SegStack
/-
Runs on segments.
-/
open Spec.Lang Spec.Compiled
namespace Cora.Compile
variable {W : Type}

section
variable {strict : Prop} {units : List (List Lam)} {B : Base}

theorem pend_world {x y : Nat} {s : Mach W} {t : SMach W} (h : SPend strict units B x y s t) {w : CWorld MCode W} (hw : SaneWorld units w) :
    SPend strict units B x y { s with world := w } { t with world := w } := by
  obtain ⟨⟨c1, c2, c3⟩, h⟩ := h
  exact ⟨⟨rfl, hw, c3⟩, h⟩

theorem active_world {s : Mach W} {t : SMach W} (h : Active strict units B s t) : t.world = s.world ∧ SaneWorld units s.world :=
  ⟨h.1.1.1, h.1.1.2.1⟩

theorem active_prim {s : Mach W} {t : SMach W} (h : Active strict units B s t) {p : String} (hfn : t.ctx.fn = .prim p) :
    s.ctx.fn = .prim p ∧ ∃ n, primArity p = some n ∧ readAt s.stack (s.ctx.bp + 1) n = readAt t.mem (t.ctx.bp + 1) n ∧
      ∀ v ∈ readAt t.mem (t.ctx.bp + 1) n, Sane units v := by
  obtain ⟨_, _, ⟨size, k, a1, a2, a3, a4, a5, a6⟩, _⟩ := h
  refine ⟨by rw [a1, hfn], ?_⟩
  rw [hfn] at a5
  cases a5 with | prim b1 b2 => exact ⟨_, b1, fr_regs a6⟩

theorem active_native {s : Mach W} {t : SMach W} (h : Active strict units B s t) {id n : Nat} (hfn : t.ctx.fn = .native id n) :
    s.ctx.fn = .native id n ∧ readAt s.stack (s.ctx.bp + 1) n = readAt t.mem (t.ctx.bp + 1) n ∧
      ∀ v ∈ readAt t.mem (t.ctx.bp + 1) n, Sane units v := by
  obtain ⟨_, _, ⟨size, k, a1, a2, a3, a4, a5, a6⟩, _⟩ := h
  refine ⟨by rw [a1, hfn], ?_⟩
  rw [hfn] at a5
  cases a5 with | native b1 => exact fr_regs a6

theorem active_fn {s : Mach W} {t : SMach W} (h : Active strict units B s t) : t.ctx.fn ≠ .exit := h.2.2.1.noExit.1

/-! ### a run inside a run -/

/-- what the inner run has to come back to -/
def inner (s : Mach W) (t : SMach W) : Base :=
  ⟨{ t.ctx with fn := .exit, label := 0 }, { s.ctx with fn := .exit, label := 0 }, t.frames, s.frames, t.data, t.heap, t.mem, s.stack⟩

theorem inner_ok (hB : B.Ok) {s : Mach W} {t : SMach W} (h : Active strict units B s t) : (inner s t).Ok := by
  obtain ⟨⟨hc, _⟩, hin, _⟩ := h
  have hthere := common_there hB hc
  obtain ⟨r, hr⟩ := hc.2.2.1
  exact ⟨rfl, rfl, ⟨t.begin_, r, hr, hin⟩, hthere⟩

theorem inner_active {s : Mach W} {t : SMach W} (h : Active strict units B s t) :
    Active strict units (inner s t) s.pushExit t.pushExit := by
  obtain ⟨⟨⟨c1, c2, ⟨r, hr⟩, c4, c5, c6, c7, c8, c9⟩, _⟩, hin, hfr, hres⟩ := h
  refine ⟨⟨⟨c1, c2, ⟨r, hr⟩, c4, ⟨[], rfl, rfl⟩, c6, c7, fun _ _ => rfl, fun _ _ => rfl⟩,
    [(inner s t).f0], [(inner s t).g0], t.data, rfl, rfl, hin.1, by have := hin.2.1; have := hin.2.2; exact Nat.lt_of_le_of_lt ‹t.ctx.bp ≤ _› ‹_›, ?_, ?_, .base⟩, hin, hfr, hres⟩
  · left
    refine ⟨by show t.data = _ :: t.data.tail; rw [hr]; rfl, ?_⟩
    simp only [limHead]
    rw [lim_bp rfl]
    exact Nat.le_refl _
  · simp only [limHead]
    rw [lim_bp rfl]
    exact Nat.le_refl _

theorem inner_back (hB : B.Ok) {s s2 : Mach W} {t t2 : SMach W} (h : Active False units B s t) (he : SEnded units (inner s t) s2 t2) :
    SPend False units B t2.ctx.sp s2.ctx.sp s2 t2 := by
  obtain ⟨⟨d1, d2, ⟨r2, hr2⟩, d4, ⟨new, hd, hh⟩, d6, d7, d8, d9⟩, e1, e2, e3, e4, e5, e6, e7⟩ := he
  have hnew : new = [] := by
    rw [e5] at hd
    have := congrArg List.length hd
    simp only [List.length_append] at this
    exact List.length_eq_zero_iff.mp (by omega)
  subst hnew
  simp only [List.nil_append, inner] at hd hh e1 e2 e3 e4
  obtain ⟨hp, hin, hfr, _⟩ := h
  have hsp : s.ctx.bp ≤ s.ctx.sp := by obtain ⟨size, k, _, _, _, h, _⟩ := hfr; omega
  obtain ⟨r, hr⟩ := hp.1.2.2.1
  have hbeg : t2.begin_ = t.begin_ ∧ r2 = r := by
    rw [hr2, hr] at hd
    injection hd with h1 h2
    exact ⟨h1, h2⟩
  have hw := pend_write hB hp (mem' := t2.mem) (st' := s2.stack) (fun p hall hp => by
    refine d8 p ⟨hall, fun b r' hb => ?_⟩
    simp only [inner] at hb ⊢
    rw [hr] at hb
    injection hb with hb _
    rw [← hb]
    exact hp) (fun p hp => d9 p hp)
  obtain ⟨⟨c1, c2, c3, c4, c5, c6, c7, c8, c9⟩, L, M, data', hL, hM, hx, hx', hu, hy, hst⟩ := hw
  simp only at hL hM hx hx' hu hst c5 c8 c9
  refine ⟨⟨d1, d2, ⟨r2, hr2⟩, d4, by rw [hd, hh]; exact c5, d6, d7, c8, c9⟩, L, M, data', by rw [e3, hL], by rw [e4, hM], ?_, ?_, ?_, ?_, hst⟩
  · rw [hbeg.1, e1]; exact Nat.le_trans hin.1 hin.2.1
  · rw [hbeg.1, e1]; exact hin.2.2
  · rw [hd, hbeg.1, e1]
    simp only
    rcases hu with ⟨h1, h2⟩ | ⟨h1, _⟩
    · exact .inl ⟨h1, Nat.le_trans h2 hin.2.1⟩
    · exact .inr ⟨h1, False.elim⟩
  · rw [e2]; exact Nat.le_trans hy hsp

end

/-! ### a run that ends gives what the machine with one array gives -/

section
variable {units : List (List Lam)} {O : Outside W} {malloc : List Nat → Nat}

theorem seg_sound (hU : UnitsOk units) (hO : KeepsSane O) (hm : Fresh malloc) : ∀ n,
    (∀ (B : Base) (s : Mach W) (t t' : SMach W), B.Ok → SEnded units B s t ∨ Active False units B s t →
      goSeg malloc O (lamBlock O units) n t none = .done t' → ∃ s', go O units n s none = some s' ∧ SEnded units B s' t') ∧
    ∀ (B : Base) (a : MAct) (s : Mach W) (t t' : SMach W), B.Ok → PAct False units B a s t →
      goSeg malloc O (lamBlock O units) n t (some a) = .done t' → ∃ s', go O units n s (some a) = some s' ∧ SEnded units B s' t' := by
  intro n
  induction n with
  | zero => exact ⟨fun B s t t' _ _ h => by simp [goSeg] at h, fun B a s t t' _ _ h => by simp [goSeg] at h⟩
  | succ n ih =>
    obtain ⟨ih1, ih2⟩ := ih
    constructor
    · intro B s t t' hB hst h
      rcases hst with hst | hact
      · have h1 : t.ctx.fn = .exit := by rw [hst.2.1, hB.1]
        have h2 : s.ctx.fn = .exit := by rw [hst.2.2.1, hB.2.1]
        simp only [goSeg, h1] at h
        cases h
        exact ⟨s, by simp only [go, h2], hst⟩
      · have hok := active_frameOk hB hact
        obtain ⟨w1, w2⟩ := active_world hact
        cases hfn : t.ctx.fn with
        | exit => exact absurd hfn (active_fn hact)
        | code u l =>
          simp only [goSeg, hfn, hok, if_true] at h
          obtain ⟨code, lam, h1, h2, h3, h4⟩ := block_sim' hB hU hO hact hfn
          simp only [lamBlock, h2, h3, Option.bind_some] at h
          rcases h4 with ⟨_, h5⟩ | ⟨s1, tv, a, h5, h6, h7⟩
          · rw [h5] at h; simp at h
          · rw [h6] at h
            simp only at h
            obtain ⟨s', h8, h9⟩ := ih2 B a s1 _ t' hB h7 h
            exact ⟨s', by simp only [go, h1, h2, h3, h5]; exact h8, h9⟩
        | prim p =>
          obtain ⟨h1, k, h2, h3, h4⟩ := active_prim hact hfn
          simp only [goSeg, hfn, hok, if_true, h2, w1, ← h3] at h
          split at h
          · rename_i v w hw
            obtain ⟨h5, h6⟩ := cprim_sane hO (by rw [h3]; exact h4) w2 hw
            obtain ⟨s', h8, h9⟩ := ih2 B (.ret v) _ _ t' hB ⟨h5, _, _, pend_world hact.1 h6⟩ h
            exact ⟨s', by simp only [go, h1, h2, hw]; exact h8, h9⟩
          · simp at h
        | native id k =>
          obtain ⟨h1, h3, h4⟩ := active_native hact hfn
          simp only [goSeg, hfn, hok, if_true, w1, ← h3] at h
          split at h
          · rename_i v w hw
            obtain ⟨h5, h6⟩ := hO.2 units id _ _ _ _ (by rw [h3]; exact h4) w2 hw
            obtain ⟨s', h8, h9⟩ := ih2 B (.ret v) _ _ t' hB ⟨h5, _, _, pend_world hact.1 h6⟩ h
            exact ⟨s', by simp only [go, h1, hw]; exact h8, h9⟩
          · simp at h
        | curry =>
          obtain ⟨h1, s1, tv, h2, h3, h4⟩ := curry_sim hB hact hfn
          simp only [goSeg, hfn, hok, if_true, h3] at h
          obtain ⟨s', h8, h9⟩ := ih1 B s1 _ t' hB (.inr h4) h
          exact ⟨s', by simp only [go, h1, h2]; exact h8, h9⟩
    · intro B a s t t' hB ha h
      cases a with
      | ret v =>
        obtain ⟨hv, x, y, hp⟩ := ha
        obtain ⟨s1, h1, _, h2⟩ := seg_ret hB hp hv
        simp only [goSeg] at h
        split at h
        · rename_i t1 ht1
          obtain ⟨s', h8, h9⟩ := ih1 B s1 t1 t' hB (h2 t1 ht1) h
          exact ⟨s', by simp only [go, h1]; exact h8, h9⟩
        · simp at h
      | call f args =>
        obtain ⟨hf, hargs, hp⟩ := ha
        simp only [goSeg] at h
        cases har : f.arity with
        | none => simp [har] at h
        | some a =>
          simp only [har] at h
          by_cases c1 : args.length = a
          · rw [if_pos c1] at h
            subst c1
            obtain ⟨t1, ht1, hact⟩ := seg_enter hB hm hp hf har hargs
            rw [ht1] at h
            obtain ⟨s', h8, h9⟩ := ih1 B _ t1 t' hB (.inr hact) h
            exact ⟨s', by simp only [go, har, if_true]; exact h8, h9⟩
          · rw [if_neg c1] at h
            by_cases c2 : args.length = 0
            · rw [if_pos c2] at h
              obtain ⟨s', h8, h9⟩ := ih2 B (.ret f) s t t' hB ⟨hf, _, _, hp⟩ h
              exact ⟨s', by simp only [go, har]; rw [if_neg c1, if_pos c2]; exact h8, h9⟩
            · rw [if_neg c2] at h
              by_cases c3 : args.length < a
              · rw [if_pos c3] at h
                obtain ⟨s', h8, h9⟩ := ih2 B (.ret (.pap f args)) s t t' hB ⟨.pap hf hargs har (by omega) c3, _, _, hp⟩ h
                exact ⟨s', by simp only [go, har]; rw [if_neg c1, if_neg c2, if_pos c3]; exact h8, h9⟩
              · rw [if_neg c3] at h
                have hlen : f.arity = some (args.take a).length := by rw [har, List.length_take]; congr 1; omega
                obtain ⟨t1, ht1, hact⟩ := seg_enter hB hm hp hf hlen fun v hv => hargs v (List.mem_of_mem_take hv)
                rw [ht1] at h
                simp only at h
                split at h
                · rename_i t2 ht2
                  obtain ⟨s2, h3, h4⟩ := ih1 _ _ _ t2 (inner_ok hB hact) (.inr (inner_active hact)) ht2
                  have hback := inner_back hB hact h4
                  have hres : t2.res = s2.res ∧ Sane units s2.res := ⟨h4.2.2.2.2.2.2.1, h4.2.2.2.2.2.2.2⟩
                  rw [hres.1] at h
                  obtain ⟨s', h8, h9⟩ := ih2 B (.call s2.res (args.drop a)) s2 t2 t' hB
                    ⟨hres.2, fun v hv => hargs v (List.mem_of_mem_drop hv), hback⟩ h
                  exact ⟨s', by simp only [go, har]; rw [if_neg c1, if_neg c2, if_neg c3, h3]; exact h8, h9⟩
                · simp at h
                · simp at h

/-- a run in which no function gets more arguments than it takes ends -/
theorem seg_ends (hU : UnitsOk units) (hO : KeepsSane O) (hm : Fresh malloc) : ∀ n,
    (∀ (B : Base) (s s' : Mach W) (t : SMach W), B.Ok → SEnded units B s t ∨ Active True units B s t →
      goX false O units n s none = some s' → ∃ t', goSeg malloc O (lamBlock O units) n t none = .done t') ∧
    ∀ (B : Base) (a : MAct) (s s' : Mach W) (t : SMach W), B.Ok → PAct True units B a s t →
      goX false O units n s (some a) = some s' → ∃ t', goSeg malloc O (lamBlock O units) n t (some a) = .done t' := by
  intro n
  induction n with
  | zero => exact ⟨fun B s s' t _ _ h => by simp [goX] at h, fun B a s s' t _ _ h => by simp [goX] at h⟩
  | succ n ih =>
    obtain ⟨ih1, ih2⟩ := ih
    constructor
    · intro B s s' t hB hst h
      rcases hst with hst | hact
      · have h1 : t.ctx.fn = .exit := by rw [hst.2.1, hB.1]
        exact ⟨t, by simp only [goSeg, h1]⟩
      · have hok := active_frameOk hB hact
        obtain ⟨w1, w2⟩ := active_world hact
        cases hfn : t.ctx.fn with
        | exit => exact absurd hfn (active_fn hact)
        | code u l =>
          obtain ⟨code, lam, h1, h2, h3, h4⟩ := block_sim' hB hU hO hact hfn
          simp only [goX, h1, h2, h3] at h
          simp only [goSeg, hfn, hok, if_true, lamBlock, h2, h3, Option.bind_some]
          rcases h4 with ⟨h5, _⟩ | ⟨s1, tv, a, h5, h6, h7⟩
          · rw [h5] at h; simp at h
          · rw [h5] at h
            rw [h6]
            exact ih2 B a s1 s' _ hB h7 h
        | prim p =>
          obtain ⟨h1, k, h2, h3, h4⟩ := active_prim hact hfn
          simp only [goX, h1, h2] at h
          simp only [goSeg, hfn, hok, if_true, h2, w1, ← h3]
          split at h
          · rename_i v w hw
            obtain ⟨h5, h6⟩ := cprim_sane hO (by rw [h3]; exact h4) w2 hw
            simp only [hw]
            exact ih2 B (.ret v) _ s' _ hB ⟨h5, _, _, pend_world hact.1 h6⟩ h
          · simp at h
        | native id k =>
          obtain ⟨h1, h3, h4⟩ := active_native hact hfn
          simp only [goX, h1] at h
          simp only [goSeg, hfn, hok, if_true, w1, ← h3]
          split at h
          · rename_i v w hw
            obtain ⟨h5, h6⟩ := hO.2 units id _ _ _ _ (by rw [h3]; exact h4) w2 hw
            simp only [hw]
            exact ih2 B (.ret v) _ s' _ hB ⟨h5, _, _, pend_world hact.1 h6⟩ h
          · simp at h
        | curry =>
          obtain ⟨h1, s1, tv, h2, h3, h4⟩ := curry_sim hB hact hfn
          simp only [goX, h1, h2] at h
          simp only [goSeg, hfn, hok, if_true, h3]
          exact ih1 B s1 s' _ hB (.inr h4) h
    · intro B a s s' t hB ha h
      cases a with
      | ret v =>
        obtain ⟨hv, x, y, hp⟩ := ha
        obtain ⟨s1, h1, h2, h3⟩ := seg_ret hB hp hv
        obtain ⟨t1, ht1⟩ := h2 trivial
        simp only [goX, h1] at h
        simp only [goSeg, ht1]
        exact ih1 B s1 s' t1 hB (h3 t1 ht1) h
      | call f args =>
        obtain ⟨hf, hargs, hp⟩ := ha
        simp only [goX] at h
        simp only [goSeg]
        cases har : f.arity with
        | none => simp [har] at h
        | some a =>
          simp only [har] at h
          simp only
          by_cases c1 : args.length = a
          · rw [if_pos c1] at h ⊢
            subst c1
            obtain ⟨t1, ht1, hact⟩ := seg_enter hB hm hp hf har hargs
            rw [ht1]
            exact ih1 B _ s' t1 hB (.inr hact) h
          · rw [if_neg c1] at h ⊢
            by_cases c2 : args.length = 0
            · rw [if_pos c2] at h ⊢
              exact ih2 B (.ret f) s s' t hB ⟨hf, _, _, hp⟩ h
            · rw [if_neg c2] at h ⊢
              by_cases c3 : args.length < a
              · rw [if_pos c3] at h ⊢
                exact ih2 B (.ret (.pap f args)) s s' t hB ⟨.pap hf hargs har (by omega) c3, _, _, hp⟩ h
              · rw [if_neg c3] at h
                simp at h

/-- more steps do not change how a run ends -/
theorem go_more : ∀ (n : Nat) (s s' : Mach W) (a : Option MAct) (k : Nat), go O units n s a = some s' → n ≤ k → go O units k s a = some s' := by
  intro n
  induction n with
  | zero => intro s s' a k h; simp [go] at h
  | succ n ih =>
    intro s s' a k h hk
    obtain ⟨k, rfl⟩ : ∃ j, k = j + 1 := ⟨k - 1, by omega⟩
    have hk' : n ≤ k := by omega
    cases a with
    | none =>
      rw [go] at h ⊢
      split at h
      · exact h
      · split at h
        · split at h
          · split at h
            · exact ih _ _ _ k h hk'
            · simp at h
          · simp at h
        · simp at h
      · split at h
        · split at h
          · exact ih _ _ _ k h hk'
          · simp at h
        · simp at h
      · split at h
        · exact ih _ _ _ k h hk'
        · simp at h
      · split at h
        · exact ih _ _ _ k h hk'
        · simp at h
    | some a =>
      cases a with
      | ret v =>
        rw [go] at h ⊢
        split at h
        · exact ih _ _ _ k h hk'
        · simp at h
      | call f args =>
        rw [go] at h ⊢
        split at h
        · split at h
          · rw [if_pos ‹_›]; exact ih _ _ _ k h hk'
          · rw [if_neg ‹_›]
            split at h
            · rw [if_pos ‹_›]; exact ih _ _ _ k h hk'
            · rw [if_neg ‹_›]
              split at h
              · rw [if_pos ‹_›]; exact ih _ _ _ k h hk'
              · rw [if_neg ‹_›]
                split at h
                · rename_i s2 h2
                  rw [ih _ _ _ k h2 hk']
                  exact ih _ _ _ k h hk'
                · simp at h
        · simp at h

end

/-! ### loading a file -/

theorem goSeg_congr {malloc : List Nat → Nat} {O : Outside W} {b b' : Nat → Nat → Mach W → Option (Mach W × MAct)}
    (h : ∀ u l s, s.ctx.fn = .code u l → b u l s = b' u l s) : ∀ (n : Nat) (t : SMach W) (a : Option MAct),
    goSeg malloc O b n t a = goSeg malloc O b' n t a := by
  intro n
  induction n with
  | zero => intro t a; rfl
  | succ n ih =>
    intro t a
    cases a with
    | none =>
      rw [goSeg, goSeg]
      cases hf : t.ctx.fn with
      | code u l => simp only [h u l t.view hf, ih] <;> rfl
      | _ => simp only [ih] <;> rfl
    | some a =>
      cases a with
      | ret v => rw [goSeg, goSeg]; simp only [ih] <;> rfl
      | call f args => rw [goSeg, goSeg]; simp only [ih] <;> rfl

/-- more steps do not change how a run ends -/
theorem goSeg_more {malloc : List Nat → Nat} {O : Outside W} {b : Nat → Nat → Mach W → Option (Mach W × MAct)} :
    ∀ (n : Nat) (t : SMach W) (a : Option MAct) (r : End (SMach W)) (k : Nat), goSeg malloc O b n t a = r → r ≠ .more → n ≤ k →
      goSeg malloc O b k t a = r := by
  intro n
  induction n with
  | zero => intro t a r k h hr; exact absurd h.symm hr
  | succ n ih =>
    intro t a r k h hr hk
    obtain ⟨k, rfl⟩ : ∃ j, k = j + 1 := ⟨k - 1, by omega⟩
    have hk' : n ≤ k := by omega
    cases a with
    | none =>
      rw [goSeg] at h ⊢
      split at h
      · exact h
      · split at h
        · split at h
          · rw [if_pos ‹_›]; exact ih _ _ _ k h hr hk'
          · rw [if_pos ‹_›]; exact h
        · rw [if_neg ‹_›]; exact h
      · split at h
        · rw [if_pos ‹_›]
          split at h
          · split at h
            · exact ih _ _ _ k h hr hk'
            · exact h
          · exact h
        · rw [if_neg ‹_›]; exact h
      · split at h
        · rw [if_pos ‹_›]
          split at h
          · exact ih _ _ _ k h hr hk'
          · exact h
        · rw [if_neg ‹_›]; exact h
      · split at h
        · rw [if_pos ‹_›]
          split at h
          · exact ih _ _ _ k h hr hk'
          · exact h
        · rw [if_neg ‹_›]; exact h
    | some a =>
      cases a with
      | ret v =>
        rw [goSeg] at h ⊢
        split at h
        · exact ih _ _ _ k h hr hk'
        · exact h
      | call f args =>
        rw [goSeg] at h ⊢
        split at h
        · split at h
          · rw [if_pos ‹_›]
            split at h
            · exact ih _ _ _ k h hr hk'
            · exact h
          · rw [if_neg ‹_›]
            split at h
            · rw [if_pos ‹_›]; exact ih _ _ _ k h hr hk'
            · rw [if_neg ‹_›]
              split at h
              · rw [if_pos ‹_›]; exact ih _ _ _ k h hr hk'
              · rw [if_neg ‹_›]
                split at h
                · split at h
                  · rename_i t2 h2
                    rw [ih _ _ _ k h2 (by simp) hk']
                    exact ih _ _ _ k h hr hk'
                  · exact absurd h.symm hr
                  · rename_i h2
                    rw [ih _ _ _ k h2 (by simp) hk']
                    exact h
                · exact h
        · exact h

theorem sane_more {units more : List (List Lam)} {v : MVal} (h : Sane units v) : Sane (units ++ more) v := by
  induction h with
  | int n => exact .int n
  | bool b => exact .bool b
  | nil => exact .nil
  | str s => exact .str s
  | sym x => exact .sym x
  | cons _ _ h1 h2 => exact .cons h1 h2
  | clo h1 h2 h3 h4 h5 _ h6 =>
    obtain ⟨hl, _⟩ := List.getElem?_eq_some_iff.mp h1
    exact .clo (by rw [List.getElem?_append_left hl, h1]) h2 h3 h4 h5 h6
  | prim h => exact .prim h
  | native h => exact .native h
  | pap _ _ h3 h4 h5 h1 h2 => exact .pap h1 h2 h3 h4 h5

/-- what the compiler makes -/
theorem compile_good {e : Core} {k k' : Nat} {code : List Lam} (h : compile e k = some (code, k')) :
    (∀ lam ∈ code, GoodLam code lam) ∧ ∃ top, code[code.length - 1]? = some top ∧ code.getLast? = some top ∧ top.params = [] := by
  simp only [compile, Option.bind_eq_bind, Option.bind_eq_some_iff] at h
  obtain ⟨⟨e1, k1⟩, h1, h2⟩ := h
  simp only [Option.some.injEq, Prod.mk.injEq] at h2
  obtain ⟨rfl, -⟩ := h2
  generalize (tailify (conv [] e1) .id k1).1 = s0
  have hs := collectStm_spec s0 []
  constructor
  · unfold collect
    refine all_append (hs.good (by simp)) fun l hl => ?_
    rw [List.mem_singleton] at hl
    subst hl
    exact (lambdaFinal_good [] hs.ok hs.closures).more
  · unfold collect
    exact ⟨lambdaFinal [] (collectStm s0.liveness []).1, by simp, by simp, rfl⟩

/-- runs without calls with too many arguments are runs -/
theorem xeval_true {over : Bool} {E : Ext W} {env w e v o w1} (h : XEval over E env w e v o w1) : XEval true E env w e v o w1 := by
  refine XEval.rec (motive_1 := fun env w e v o w1 _ => XEval true E env w e v o w1)
    (motive_2 := fun env w es vs os w1 _ => XArgs true E env w es vs os w1)
    (motive_3 := fun w f args v w1 _ => XApply true E w f args v w1)
    ?_ ?_ ?_ ?_ ?_ ?_ ?_ ?_ ?_ ?_ ?_ ?_ ?_ ?_ ?_ ?_ ?_ ?_ ?_ ?_ ?_ h
  · intros; exact .lit ..
  · intros; exact .quote ..
  · intro _ _ _ _ h; exact .local _ _ _ _ h
  · intro _ _ _ _ h h'; exact .global _ _ _ _ h h'
  · intros; exact .lam ..
  · intro _ _ _ _ _ _ _ _ _ _ _ _ h h'; exact .then _ _ _ _ _ _ _ _ _ _ h h'
  · intro _ _ _ _ _ _ _ _ _ _ _ _ hu _ h h'; exact .else _ _ _ _ _ _ _ _ _ _ _ h hu h'
  · intro _ _ _ _ _ _ _ _ _ _ _ _ h h'; exact .seq _ _ _ _ _ _ _ _ _ _ h h'
  · intro _ _ _ _ _ _ _ _ _ _ _ _ _ h h'; exact .bind _ _ _ _ _ _ _ _ _ _ _ h h'
  · intro _ _ _ _ _ _ _ _ _ _ hp _ hs _ h h'; exact .prim _ _ _ _ _ _ _ _ _ _ hp h hs h'
  · intro _ _ _ _ _ _ _ _ _ _ _ _ hp _ _ hs _ h h' h''; exact .app _ _ _ _ _ _ _ _ _ _ _ _ hp h h' hs h''
  · intros; exact .nil ..
  · intro _ _ _ _ _ _ _ _ _ _ _ _ h h'; exact .cons _ _ _ _ _ _ _ _ _ _ h h'
  · intro _ _ _ _ _ _ _ _ hl _ h; exact .clo _ _ _ _ _ _ _ _ hl h
  · intro _ _ _ _ _ h h'; exact .prim _ _ _ _ _ h h'
  · intro _ _ _ _ _ _ h h'; exact .native _ _ _ _ _ _ h h'
  · intro _ _ _ h h'; exact .none _ _ _ h h'
  · intro _ _ _ _ h h' h''; exact .less _ _ _ _ h h' h''
  · intro _ _ _ _ _ _ _ _ _ h h' _ _ h2 h3; exact .more _ _ _ _ _ _ _ _ rfl h h' h2 h3
  · intro _ _ _ _ _ _ h _ h'; exact .pap _ _ _ _ _ _ h h'
  · intros; exact .papNone ..

/-- the state of the machine with one array -/
def flatOf (t : SMach W) : Mach W := ⟨t.ctx, [], t.mem, t.res, t.world⟩

theorem load_active {strict : Prop} {units : List (List Lam)} {file : List Lam} {n : Nat} {t : SMach W} (hin : InSegment n t)
    (hroom : FitsFrame n file) (hw : SaneWorld units t.world) {top : Lam} (ht : file[file.length - 1]? = some top)
    (hl : file.getLast? = some top) (hp : top.params = []) :
    (inner (flatOf t) t).Ok ∧ Active strict (units ++ [file]) (inner (flatOf t) t) ((flatOf t).loadSo units.length (file.length - 1))
      (t.loadSo units.length (file.length - 1)) := by
  obtain ⟨h1, h2, h3, ⟨r, hr⟩, h5, h6, h7, h8, h9, h10⟩ := hin
  have hseg : InSeg t.begin_ t.ctx := ⟨h6, by omega, by omega⟩
  refine ⟨⟨rfl, rfl, ⟨t.begin_, r, hr, hseg⟩, h8⟩, ⟨⟨rfl, fun x v hv => sane_more (hw x v hv), ⟨r, hr⟩, h5, ⟨[], rfl, rfl⟩, h9, h10,
    fun _ _ => rfl, fun _ _ => rfl⟩, [(inner (flatOf t) t).f0], [(inner (flatOf t) t).g0], t.data, rfl, rfl, h6,
    by show t.ctx.bp < t.begin_ + 256; omega, ?_, ?_, .base⟩, hseg, ?_, fun h => absurd rfl h⟩
  · left
    refine ⟨by show t.data = _ :: t.data.tail; rw [hr]; rfl, ?_⟩
    simp only [limHead]
    rw [lim_bp rfl]
    exact Nat.le_refl _
  · simp only [limHead]
    rw [lim_bp rfl]
    exact Nat.le_refl _
  · refine ⟨n, 1, rfl, rfl, h2, h2, ?_, fun i hi => ?_⟩
    · exact .code (by simp) ht (by rw [hp]; exact h3) (hroom top hl) (.inl ⟨rfl, by rw [hp]; rfl⟩) (by
        show ∀ x ∈ capturedOf (t.mem t.ctx.bp), _
        rw [h1]; simp)
    · obtain rfl : i = 0 := by omega
      exact ⟨rfl, fun h => absurd h (by omega)⟩

theorem load_seg {over : Bool} {E : Ext W} {O : Outside W} (hA : Agree E O) (hO : Parametric O) (hK : KeepsSane O) {malloc : List Nat → Nat}
    (hm : Fresh malloc) {units : List (List Lam)} (hU : UnitsOk units) {w w1 : World W}
    {e : Core} {v : Val} {o : Operand} (h : XEval over E [] w e v o w1) {k k' : Nat} {file : List Lam} (hk : Below k e.syms)
    (hb : NoPrims e.binders) (hfull : e.full) (ht : e.tidy []) (hc : compile e k = some (file, k')) (hsmall : SmallFrames file)
    (t : SMach W) (hw : MWorld units w t.world) (hsw : SaneWorld units t.world) {n : Nat} (hin : InSegment n t) (hroom : FitsFrame n file) :
    UnitsOk (units ++ [file]) ∧
    (over = false → ∃ fuel t', goSeg malloc O (lamBlock O (units ++ [file])) fuel (t.loadSo units.length (file.length - 1)) none = .done t') ∧
    ∀ fuel t', goSeg malloc O (lamBlock O (units ++ [file])) fuel (t.loadSo units.length (file.length - 1)) none = .done t' →
      MRel (units ++ [file]) v t'.res ∧ MWorld (units ++ [file]) w1 t'.world ∧ SaneWorld (units ++ [file]) t'.world ∧
      t'.ctx = { t.ctx with fn := .exit, label := 0 } ∧ t'.frames = t.frames ∧ t'.data = t.data ∧ t'.heap = t.heap ∧
      t'.begin_ = t.begin_ ∧ t'.end_ = t.end_ ∧ ∀ p, Callers t p → t'.mem p = t.mem p := by
  obtain ⟨hgood, top, htop, hlast, hparams⟩ := compile_good hc
  have hU' : UnitsOk (units ++ [file]) := by
    intro code hcode
    rcases List.mem_append.mp hcode with hcode | hcode
    · exact hU code hcode
    · rw [List.mem_singleton] at hcode
      subst hcode
      exact ⟨hsmall, hgood⟩
  refine ⟨hU', fun ho => ?_, fun fuel t' hrun => ?_⟩
  · subst ho
    obtain ⟨hB, hact⟩ := load_active (strict := True) hin hroom hsw htop hlast hparams
    obtain ⟨s', ⟨fuel, hfuel⟩, -⟩ := load_sim hA hO h hk hb hfull ht hc (flatOf t) hw ⟨hin.captured, hin.size⟩ hroom
    exact ⟨fuel, (seg_ends hU' hK hm fuel).1 _ _ s' _ hB (.inr hact) hfuel⟩
  · obtain ⟨hB, hact⟩ := load_active (strict := False) hin hroom hsw htop hlast hparams
    obtain ⟨s', hs', he⟩ := (seg_sound hU' hK hm fuel).1 _ _ _ t' hB (.inr hact) hrun
    have htrue : XEval true E [] w e v o w1 := by
      cases over with
      | true => exact h
      | false => exact xeval_true h
    obtain ⟨s2, ⟨fuel2, hfuel2⟩, h1, h2, h3, h4, h5⟩ := load_sim hA hO htrue hk hb hfull ht hc (flatOf t) hw ⟨hin.captured, hin.size⟩ hroom
    rw [goX_true] at hfuel2
    have heq : s' = s2 := by
      have a1 := go_more _ _ _ _ (fuel + fuel2) hs' (by omega)
      have a2 := go_more _ _ _ _ (fuel + fuel2) hfuel2 (by omega)
      rw [a1] at a2
      exact Option.some.inj a2
    subst heq
    obtain ⟨⟨d1, d2, ⟨r2, hr2⟩, d4, ⟨new, hd, hh⟩, d6, d7, d8, d9⟩, e1, e2, e3, e4, e5, e6, e7⟩ := he
    have hnew : new = [] := by
      rw [e5] at hd
      have := congrArg List.length hd
      simp only [List.length_append] at this
      exact List.length_eq_zero_iff.mp (by omega)
    subst hnew
    simp only [List.nil_append, inner] at hd hh
    obtain ⟨r, hr⟩ := hin.top
    have hbeg : t'.begin_ = t.begin_ := by
      rw [hr2, hr] at hd
      injection hd
    refine ⟨e6 ▸ h1, d1 ▸ h2, d1 ▸ d2, e1, e3, hd, hh, hbeg, by rw [d4, hbeg, hin.last], fun p hp => d8 p ⟨hp.1, fun b r' hb => ?_⟩⟩
    simp only [inner] at hb ⊢
    rw [hr] at hb
    injection hb with hb _
    rw [← hb]
    exact hp.2

end Cora.Compile
