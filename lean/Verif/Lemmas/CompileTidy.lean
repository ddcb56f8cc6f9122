import Verif.Lemmas.CompileParse
import Verif.Lemmas.CompileTail
/-
Programs whose `let`s bind no variable in use stay so in `parse` and `closure-convert`.
-/
open Spec.Lang
namespace Cora.Compile

/-- a symbol made while the counter of `gensym` went from `k` to `k'` -/
def New (k k' : Nat) (x : Sym) : Prop := ∃ i, k ≤ i ∧ i < k' ∧ x = .gen i

theorem New.mono {k k' j j' : Nat} {x : Sym} (h : New k k' x) (h1 : j ≤ k) (h2 : k' ≤ j') : New j j' x := by
  obtain ⟨i, h3, h4, h5⟩ := h
  exact ⟨i, by omega, by omega, h5⟩

theorem new_not {k k' j : Nat} {x : Sym} {xs : List Sym} (h : New k k' x) (hb : Below j xs) (hj : j ≤ k) : x ∉ xs := by
  obtain ⟨i, h3, h4, rfl⟩ := h
  exact below_gen hb (by omega)

theorem builtin_full {f : Core} {args : List Core} {p : String} {n : Nat} (h : fullCall f args)
    (hb : builtin f = some (p, n)) : args.length = n := by
  obtain ⟨rfl, h1⟩ := builtin_eq hb
  exact h n h1

mutual
/-- the variables bound by `let` after `parse` and `closure-convert` -/
theorem conv_lets : ∀ (e : Core) {scope : List Sym} {k k' : Nat} {e1 : Exp1} (fvs : List Sym), parse scope e k = some (e1, k') →
    ∀ x ∈ (conv fvs e1).lets, x ∈ e.lets ∨ New k k' x
  | .lit _, _, _, _, _, fvs, h, x, hx => by
    simp only [parse, Option.some.injEq, Prod.mk.injEq] at h
    rw [← h.1] at hx; simp [conv, Exp.lets] at hx
  | .quote _, _, _, _, _, fvs, h, x, hx => by
    simp only [parse, Option.some.injEq, Prod.mk.injEq] at h
    rw [← h.1] at hx; simp [conv, Exp.lets] at hx
  | .var y, _, _, _, _, fvs, h, x, hx => by
    simp only [parse, Option.some.injEq, Prod.mk.injEq] at h
    rw [← h.1] at hx
    split at hx <;> simp [conv, Exp.lets] at hx
  | .lam ps b, _, _, _, _, fvs, h, x, hx => by
    obtain ⟨b1, _, rfl⟩ := parse_lam h
    simp [conv, Exp.lets] at hx
  | .ite a b c, _, _, _, _, fvs, h, x, hx => by
    rcases parse_ite h with ⟨_, b1, k1, c1, k2, a1, pb, pc, pa, rfl⟩ | ⟨_, a1, k1, b1, k2, c1, pa, pb, pc, rfl⟩
    · have l1 := parse_le b pb
      have l2 := parse_le c pc
      have l3 := parse_le a pa
      simp only [conv, convs, Exp.lets, Exp.letss, List.append_nil, List.nil_append, List.mem_cons, List.not_mem_nil,
        false_or, List.cons_append] at hx
      rcases hx with rfl | hx
      · exact .inr ⟨_, Nat.le_refl _, by omega, rfl⟩
      · rcases conv_lets a fvs pa x hx with h1 | h1
        · exact .inl (by simp [Core.lets, h1])
        · exact .inr (h1.mono (by omega) (by omega))
    · have l1 := parse_le a pa
      have l2 := parse_le b pb
      have l3 := parse_le c pc
      simp only [conv, Exp.lets, List.mem_append] at hx
      simp only [Core.lets, List.mem_append]
      rcases hx with (hx | hx) | hx
      · exact (conv_lets a fvs pa x hx).imp (fun h => .inl (.inl h)) fun h => h.mono (by omega) (by omega)
      · exact (conv_lets b fvs pb x hx).imp (fun h => .inl (.inr h)) fun h => h.mono (by omega) (by omega)
      · exact (conv_lets c fvs pc x hx).imp (fun h => .inr h) fun h => h.mono (by omega) (by omega)
  | .seq a b, _, _, _, _, fvs, h, x, hx => by
    obtain ⟨a1, k1, b1, pa, pb, rfl⟩ := parse_seq h
    have l1 := parse_le a pa
    have l2 := parse_le b pb
    simp only [conv, Exp.lets, List.mem_append] at hx
    simp only [Core.lets, List.mem_append]
    rcases hx with hx | hx
    · exact (conv_lets a fvs pa x hx).imp (fun h => .inl h) fun h => h.mono (by omega) (by omega)
    · exact (conv_lets b fvs pb x hx).imp (fun h => .inr h) fun h => h.mono (by omega) (by omega)
  | .bind y a b, _, _, _, _, fvs, h, x, hx => by
    obtain ⟨a1, k1, b1, pa, pb, rfl⟩ := parse_bind h
    have l1 := parse_le a pa
    have l2 := parse_le b pb
    simp only [conv, Exp.lets, List.mem_append, List.mem_cons] at hx
    simp only [Core.lets, List.mem_append, List.mem_cons]
    rcases hx with (hx | hx) | hx
    · exact .inl (.inl (.inl hx))
    · exact (conv_lets a fvs pa x hx).imp (fun h => .inl (.inr h)) fun h => h.mono (by omega) (by omega)
    · exact (conv_lets b fvs pb x hx).imp (fun h => .inr h) fun h => h.mono (by omega) (by omega)
  | .app f args, _, _, _, _, fvs, h, x, hx => by
    rcases parse_app h with ⟨_, f1, k1, args1, pf, pa, rfl⟩ | ⟨_, p, n, _, ⟨_, args1, pa, rfl⟩ | ⟨_, args1, pa, rfl⟩⟩ |
      ⟨_, _, f1, k1, args1, pf, pa, rfl⟩
    · have l1 := parse_le f pf
      have l2 := parseList_le args pa
      simp only [conv, Exp.lets, List.nil_append, List.mem_append, List.mem_cons] at hx
      simp only [Core.lets, List.mem_append]
      rcases hx with (rfl | hx) | hx
      · exact .inr ⟨_, Nat.le_refl _, by omega, rfl⟩
      · exact (conv_lets f fvs pf x hx).imp (fun h => .inl h) fun h => h.mono (by omega) (by omega)
      · exact (convs_letss args fvs pa x hx).imp (fun h => .inr h) fun h => h.mono (by omega) (by omega)
    · simp only [conv, Exp.lets] at hx
      simp only [Core.lets, List.mem_append]
      exact (convs_letss args fvs pa x hx).imp (fun h => .inr h) fun h => h
    · simp [conv, Exp.lets] at hx
    · have l1 := parse_le f pf
      have l2 := parseList_le args pa
      simp only [conv, Exp.lets, List.mem_append] at hx
      simp only [Core.lets, List.mem_append]
      rcases hx with hx | hx
      · exact (conv_lets f fvs pf x hx).imp (fun h => .inl h) fun h => h.mono (by omega) (by omega)
      · exact (convs_letss args fvs pa x hx).imp (fun h => .inr h) fun h => h.mono (by omega) (by omega)
theorem convs_letss : ∀ (es : List Core) {scope : List Sym} {k k' : Nat} {l : List Exp1} (fvs : List Sym),
    parseList scope es k = some (l, k') → ∀ x ∈ Exp.letss (convs fvs l), x ∈ Core.letss es ∨ New k k' x
  | [], _, _, _, _, fvs, h, x, hx => by
    simp only [parseList, Option.some.injEq, Prod.mk.injEq] at h
    rw [← h.1] at hx; simp [convs, Exp.letss] at hx
  | e :: es, _, _, _, _, fvs, h, x, hx => by
    obtain ⟨a1, k1, b1, pa, pb, rfl⟩ := parseList_cons h
    have l1 := parse_le e pa
    have l2 := parseList_le es pb
    simp only [convs, Exp.letss, List.mem_append] at hx
    simp only [Core.letss, List.mem_append]
    rcases hx with hx | hx
    · exact (conv_lets e fvs pa x hx).imp (fun h => .inl h) fun h => h.mono (by omega) (by omega)
    · exact (convs_letss es fvs pb x hx).imp (fun h => .inr h) fun h => h.mono (by omega) (by omega)
end

mutual
/-- the variables bound anywhere -/
theorem conv_bound : ∀ (e : Core) {scope : List Sym} {k k' : Nat} {e1 : Exp1} (fvs : List Sym), parse scope e k = some (e1, k') →
    e.full → ∀ x ∈ (conv fvs e1).bound, x ∈ e.binders ∨ New k k' x
  | .lit _, _, _, _, _, fvs, h, _, x, hx => by
    simp only [parse, Option.some.injEq, Prod.mk.injEq] at h
    rw [← h.1] at hx; simp [conv, Exp.bound] at hx
  | .quote _, _, _, _, _, fvs, h, _, x, hx => by
    simp only [parse, Option.some.injEq, Prod.mk.injEq] at h
    rw [← h.1] at hx; simp [conv, Exp.bound] at hx
  | .var y, _, _, _, _, fvs, h, _, x, hx => by
    simp only [parse, Option.some.injEq, Prod.mk.injEq] at h
    rw [← h.1] at hx
    split at hx <;> simp [conv, Exp.bound] at hx
  | .lam ps b, _, _, _, _, fvs, h, hfull, x, hx => by
    obtain ⟨b1, pb, rfl⟩ := parse_lam h
    simp only [Core.full] at hfull
    simp only [conv, Exp.bound, List.mem_append] at hx
    simp only [Core.binders, List.mem_append]
    rcases hx with hx | hx
    · exact .inl (.inl hx)
    · exact (conv_bound b _ pb hfull x hx).imp (fun h => .inr h) fun h => h
  | .ite a b c, _, _, _, _, fvs, h, hfull, x, hx => by
    simp only [Core.full] at hfull
    simp only [Core.binders, List.mem_append]
    rcases parse_ite h with ⟨_, b1, k1, c1, k2, a1, pb, pc, pa, rfl⟩ | ⟨_, a1, k1, b1, k2, c1, pa, pb, pc, rfl⟩
    · have l1 := parse_le b pb
      have l2 := parse_le c pc
      have l3 := parse_le a pa
      simp only [conv, convs, Exp.bound, Exp.bounds, List.append_nil, List.nil_append, List.mem_cons, List.not_mem_nil,
        false_or, List.cons_append, List.mem_append] at hx
      rcases hx with rfl | rfl | (hx | hx) | hx
      · exact .inr ⟨_, Nat.le_refl _, by omega, rfl⟩
      · exact .inr ⟨_, by omega, by omega, rfl⟩
      · exact (conv_bound b _ pb hfull.2.1 x hx).imp (fun h => .inl (.inr h)) fun h => h.mono (by omega) (by omega)
      · exact (conv_bound c _ pc hfull.2.2 x hx).imp (fun h => .inr h) fun h => h.mono (by omega) (by omega)
      · exact (conv_bound a _ pa hfull.1 x hx).imp (fun h => .inl (.inl h)) fun h => h.mono (by omega) (by omega)
    · have l1 := parse_le a pa
      have l2 := parse_le b pb
      have l3 := parse_le c pc
      simp only [conv, Exp.bound, List.mem_append] at hx
      rcases hx with (hx | hx) | hx
      · exact (conv_bound a fvs pa hfull.1 x hx).imp (fun h => .inl (.inl h)) fun h => h.mono (by omega) (by omega)
      · exact (conv_bound b fvs pb hfull.2.1 x hx).imp (fun h => .inl (.inr h)) fun h => h.mono (by omega) (by omega)
      · exact (conv_bound c fvs pc hfull.2.2 x hx).imp (fun h => .inr h) fun h => h.mono (by omega) (by omega)
  | .seq a b, _, _, _, _, fvs, h, hfull, x, hx => by
    obtain ⟨a1, k1, b1, pa, pb, rfl⟩ := parse_seq h
    have l1 := parse_le a pa
    have l2 := parse_le b pb
    simp only [Core.full] at hfull
    simp only [conv, Exp.bound, List.mem_append] at hx
    simp only [Core.binders, List.mem_append]
    rcases hx with hx | hx
    · exact (conv_bound a fvs pa hfull.1 x hx).imp (fun h => .inl h) fun h => h.mono (by omega) (by omega)
    · exact (conv_bound b fvs pb hfull.2 x hx).imp (fun h => .inr h) fun h => h.mono (by omega) (by omega)
  | .bind y a b, _, _, _, _, fvs, h, hfull, x, hx => by
    obtain ⟨a1, k1, b1, pa, pb, rfl⟩ := parse_bind h
    have l1 := parse_le a pa
    have l2 := parse_le b pb
    simp only [Core.full] at hfull
    simp only [conv, Exp.bound, List.mem_append, List.mem_cons] at hx
    simp only [Core.binders, List.mem_append, List.mem_cons]
    rcases hx with (hx | hx) | hx
    · exact .inl (.inl (.inl hx))
    · exact (conv_bound a fvs pa hfull.1 x hx).imp (fun h => .inl (.inr h)) fun h => h.mono (by omega) (by omega)
    · exact (conv_bound b fvs pb hfull.2 x hx).imp (fun h => .inr h) fun h => h.mono (by omega) (by omega)
  | .app f args, _, _, _, _, fvs, h, hfull, x, hx => by
    simp only [Core.full] at hfull
    simp only [Core.binders, List.mem_append]
    rcases parse_app h with ⟨_, f1, k1, args1, pf, pa, rfl⟩ | ⟨_, p, n, hb, ⟨_, args1, pa, rfl⟩ | ⟨hlt, args1, pa, rfl⟩⟩ |
      ⟨_, _, f1, k1, args1, pf, pa, rfl⟩
    · have l1 := parse_le f pf
      have l2 := parseList_le args pa
      simp only [conv, Exp.bound, List.nil_append, List.mem_append, List.mem_cons] at hx
      rcases hx with (rfl | hx) | hx
      · exact .inr ⟨_, Nat.le_refl _, by omega, rfl⟩
      · exact (conv_bound f fvs pf hfull.1 x hx).imp (fun h => .inl h) fun h => h.mono (by omega) (by omega)
      · exact (convs_bounds args fvs pa hfull.2.1 x hx).imp (fun h => .inr h) fun h => h.mono (by omega) (by omega)
    · simp only [conv, Exp.bound] at hx
      exact (convs_bounds args fvs pa hfull.2.1 x hx).imp (fun h => .inr h) fun h => h
    · have := builtin_full hfull.2.2 hb
      omega
    · have l1 := parse_le f pf
      have l2 := parseList_le args pa
      simp only [conv, Exp.bound, List.mem_append] at hx
      rcases hx with hx | hx
      · exact (conv_bound f fvs pf hfull.1 x hx).imp (fun h => .inl h) fun h => h.mono (by omega) (by omega)
      · exact (convs_bounds args fvs pa hfull.2.1 x hx).imp (fun h => .inr h) fun h => h.mono (by omega) (by omega)
theorem convs_bounds : ∀ (es : List Core) {scope : List Sym} {k k' : Nat} {l : List Exp1} (fvs : List Sym),
    parseList scope es k = some (l, k') → Core.fulls es → ∀ x ∈ Exp.bounds (convs fvs l), x ∈ Core.binderss es ∨ New k k' x
  | [], _, _, _, _, fvs, h, _, x, hx => by
    simp only [parseList, Option.some.injEq, Prod.mk.injEq] at h
    rw [← h.1] at hx; simp [convs, Exp.bounds] at hx
  | e :: es, _, _, _, _, fvs, h, hfull, x, hx => by
    obtain ⟨a1, k1, b1, pa, pb, rfl⟩ := parseList_cons h
    have l1 := parse_le e pa
    have l2 := parseList_le es pb
    simp only [Core.fulls] at hfull
    simp only [convs, Exp.bounds, List.mem_append] at hx
    simp only [Core.binderss, List.mem_append]
    rcases hx with hx | hx
    · exact (conv_bound e fvs pa hfull.1 x hx).imp (fun h => .inl h) fun h => h.mono (by omega) (by omega)
    · exact (convs_bounds es fvs pb hfull.2 x hx).imp (fun h => .inr h) fun h => h.mono (by omega) (by omega)
end

mutual
theorem lets_syms : ∀ (e : Core) (x : Sym), x ∈ e.lets → x ∈ e.syms
  | .lit _, x, h => by simp [Core.lets] at h
  | .quote _, x, h => by simp [Core.lets] at h
  | .var _, x, h => by simp [Core.lets] at h
  | .lam _ _, x, h => by simp [Core.lets] at h
  | .ite a b c, x, h => by
    simp only [Core.lets, Core.syms, List.mem_append] at h ⊢
    exact h.imp (fun h => h.imp (lets_syms a x) (lets_syms b x)) (lets_syms c x)
  | .seq a b, x, h => by
    simp only [Core.lets, Core.syms, List.mem_append] at h ⊢
    exact h.imp (lets_syms a x) (lets_syms b x)
  | .bind y a b, x, h => by
    simp only [Core.lets, Core.syms, List.mem_append, List.mem_cons] at h ⊢
    exact h.imp (fun h => h.imp id (lets_syms a x)) (lets_syms b x)
  | .app f args, x, h => by
    simp only [Core.lets, Core.syms, List.mem_append] at h ⊢
    exact h.imp (lets_syms f x) (letss_symss args x)
theorem letss_symss : ∀ (es : List Core) (x : Sym), x ∈ Core.letss es → x ∈ Core.symss es
  | [], x, h => by simp [Core.letss] at h
  | e :: es, x, h => by
    simp only [Core.letss, Core.symss, List.mem_append] at h ⊢
    exact h.imp (lets_syms e x) (letss_symss es x)
end

/-- the variables bound by `let` in operands stay different -/
theorem lets_apart {l1 l2 m1 m2 : List Sym} {k k1 k2 : Nat} (h : ∀ x ∈ l1, x ∉ l2) (hk : k ≤ k1)
    (b1 : Below k l1) (b2 : Below k l2) (h1 : ∀ x ∈ m1, x ∈ l1 ∨ New k k1 x) (h2 : ∀ x ∈ m2, x ∈ l2 ∨ New k1 k2 x) :
    ∀ x ∈ m1, x ∉ m2 := by
  intro x hx hx2
  rcases h1 x hx with h3 | h3
  · rcases h2 x hx2 with h4 | h4
    · exact h x h3 h4
    · exact new_not h4 b1 hk h3
  · rcases h2 x hx2 with h4 | h4
    · exact new_not h3 b2 (Nat.le_refl k) h4
    · obtain ⟨i, _, h5, rfl⟩ := h3
      obtain ⟨j, h6, _, h7⟩ := h4
      cases h7
      omega

theorem convVar_ok {fvs S2 : List Sym} {x : Sym} (h : x ∈ fvs ∨ x ∈ S2) : (convVar fvs x).ok S2 fvs.length := by
  cases hc : convVar fvs x with
  | loc y =>
    obtain ⟨rfl, h1⟩ := convVar_loc.mp hc
    exact h.resolve_left h1
  | cap i =>
    have := convVar_cap hc
    exact (List.getElem?_eq_some_iff.mp this).1

/-- what is known about the variables in use: `S` those of the program, `fvs` the captured and `S2` the local ones of
the compiled function -/
structure Used (k : Nat) (scope S fvs S2 fv syms : List Sym) : Prop where
  inScope : ∀ x ∈ fv, x ∈ scope → x ∈ fvs ∨ x ∈ S2
  used : ∀ x, x ∈ fvs ∨ x ∈ S2 → x ∈ syms → x ∈ S
  belowF : Below k fvs
  belowS : Below k S2

theorem Used.sub {k k' : Nat} {scope S fvs S2 fv syms fv' syms' : List Sym} (h : Used k scope S fvs S2 fv syms) (hk : k ≤ k')
    (h1 : ∀ x ∈ fv', x ∈ fv) (h2 : ∀ x ∈ syms', x ∈ syms) : Used k' scope S fvs S2 fv' syms' where
  inScope x hx := h.inScope x (h1 x hx)
  used x hx hs := h.used x hx (h2 x hs)
  belowF := below_mono h.belowF hk
  belowS := below_mono h.belowS hk

theorem Used.gen {k k' n : Nat} {scope S fvs S2 fv syms : List Sym} (h : Used k scope S fvs S2 fv syms) (hk : k ≤ k') (hn : n < k')
    (hnew : Sym.gen n ∉ syms) (hfv : Sym.gen n ∉ fv) :
    Used k' (.gen n :: scope) S fvs (.gen n :: S2) fv syms where
  inScope x hx hs := by
    simp only [List.mem_cons] at hs ⊢
    rcases hs with rfl | hs
    · exact absurd hx hfv
    · exact (h.inScope x hx hs).imp id .inr
  used x hx hs := by
    simp only [List.mem_cons] at hx
    rcases hx with hx | rfl | hx
    · exact h.used x (.inl hx) hs
    · exact absurd hs hnew
    · exact h.used x (.inr hx) hs
  belowF := below_mono h.belowF hk
  belowS := below_cons.mpr ⟨below_singleton hn, below_mono h.belowS hk⟩

mutual
theorem parse_tidy : ∀ (e : Core) {scope : List Sym} {k k' : Nat} {e1 : Exp1} {S fvs S2 : List Sym},
    parse scope e k = some (e1, k') → Fits k scope e → e.full → e.tidy S → Used k scope S fvs S2 e.fv e.syms →
    e1.letsOk fvs ∧ (conv fvs e1).tidy S2 fvs.length
  | .lit _, _, _, _, _, S, fvs, S2, h, _, _, _, _ => by
    simp only [parse, Option.some.injEq, Prod.mk.injEq] at h
    rw [← h.1]; simp [Exp1.letsOk, conv, Exp.tidy]
  | .quote _, _, _, _, _, S, fvs, S2, h, _, _, _, _ => by
    simp only [parse, Option.some.injEq, Prod.mk.injEq] at h
    rw [← h.1]; simp [Exp1.letsOk, conv, Exp.tidy]
  | .var x, _, _, _, _, S, fvs, S2, h, _, _, _, hu => by
    simp only [parse, Option.some.injEq, Prod.mk.injEq] at h
    rw [← h.1]
    split
    · rename_i hx
      exact ⟨by simp [Exp1.letsOk], by
        simp only [conv, Exp.tidy]
        exact convVar_ok (hu.inScope x (by simp [Core.fv]) hx)⟩
    · simp [Exp1.letsOk, conv, Exp.tidy]
  | .lam ps b, scope, k, _, _, S, fvs, S2, h, hf, hfull, ht, hu => by
    obtain ⟨b1, pb, rfl⟩ := parse_lam h
    simp only [Core.full] at hfull
    simp only [Core.tidy] at ht
    have hfree : ∀ x, x ∈ (Exp1.lam ps b1).free ↔ x ∉ ps ∧ x ∈ b.fv ∧ x ∈ scope := by
      intro x
      have := parse_free b pb (fits_lam hf) x
      simp only [Exp1.free, mem_diff, this, List.mem_append]
      grind
    have hfv : ∀ x, x ∈ (Exp1.lam ps b1).free → x ∈ (Core.lam ps b).fv := fun x hx => by
      have := (hfree x).mp hx
      simp [Core.fv, this.1, this.2.1]
    have hF : ∀ x ∈ (Exp1.lam ps b1).free, x ∈ fvs ∨ x ∈ S2 := fun x hx =>
      hu.inScope x (hfv x hx) ((hfree x).mp hx).2.2
    obtain ⟨h1, h2⟩ := parse_tidy b (fvs := (Exp1.lam ps b1).free) (S2 := ps) pb (fits_lam hf) hfull ht
      { inScope := fun x hx hs => by
          simp only [List.mem_append] at hs
          rw [hfree]
          grind
        used := fun x hx hs => by
          rcases hx with hx | hx
          · have h3 := hfv x hx
            have h4 := hu.used x (hF x hx) (fv_syms _ _ h3)
            simp only [List.mem_append, List.mem_filter, decide_eq_true_eq]
            exact .inr ⟨h4, h3⟩
          · simp [hx]
        belowF := below_sub hf.below fun x hx => fv_syms _ _ (hfv x hx)
        belowS := below_sub hf.below fun x hx => by simp [Core.syms, hx] }
    refine ⟨by simpa only [Exp1.letsOk] using h1, ?_⟩
    simp only [conv, Exp.tidy, List.length_map]
    refine ⟨h2, fun r hr => ?_⟩
    obtain ⟨x, hx, rfl⟩ := List.mem_map.mp hr
    exact convVar_ok (hF x hx)
  | .ite a b c, scope, k, _, _, S, fvs, S2, h, hf, hfull, ht, hu => by
    simp only [Core.full] at hfull
    simp only [Core.tidy] at ht
    obtain ⟨fa, fb, fc⟩ := fits_ite hf
    rcases parse_ite h with ⟨_, b1, k1, c1, k2, a1, pb, pc, pa, rfl⟩ | ⟨_, a1, k1, b1, k2, c1, pa, pb, pc, rfl⟩
    · have l1 := parse_le b pb
      have l2 := parse_le c pc
      have fb' : Fits (k + 2) (.gen (k + 1) :: scope) b := Fine.gen fb (by omega) (by omega)
      have fc' : Fits k1 (.gen (k + 1) :: scope) c := Fine.gen fc (by omega) (by omega)
      have fa' : Fits k2 (.gen k :: scope) a := Fine.gen fa (by omega) (by omega)
      have hnew : ∀ {x : Sym} {n : Nat} {e : Core}, Fits k scope e → k ≤ n → x ∈ e.fv → x ≠ .gen n :=
        fun h hn hx => ne_gen h.below hn (fv_syms _ _ hx)
      have hfree : ∀ x, x ∈ (Exp1.lam [.gen (k + 1)] (.ite (.loc (.gen (k + 1))) b1 c1)).free ↔
          (x ∈ b.fv ∨ x ∈ c.fv) ∧ x ∈ scope := by
        intro x
        have ib := parse_free b pb fb' x
        have ic := parse_free c pc fc' x
        simp only [Exp1.free, mem_diff, mem_union, List.not_mem_nil, false_or, or_false, ib, ic, List.mem_cons]
        constructor
        · rintro ⟨(h | h) | h, hn⟩
          · exact absurd h hn
          · exact ⟨.inl h.1, h.2.resolve_left hn⟩
          · exact ⟨.inr h.1, h.2.resolve_left hn⟩
        · rintro ⟨h | h, hs⟩
          · exact ⟨.inl (.inr ⟨h, .inr hs⟩), hnew fb (by omega) h⟩
          · exact ⟨.inr ⟨h, .inr hs⟩, hnew fc (by omega) h⟩
      have hlam : ∀ F, (Exp1.lam [.gen (k + 1)] (.ite (.loc (.gen (k + 1))) b1 c1)).free = F →
          (b1.letsOk F ∧ c1.letsOk F) ∧ (conv F (.ite (.loc (.gen (k + 1))) b1 c1)).tidy [.gen (k + 1)] F.length ∧
          ∀ x ∈ F, x ∈ fvs ∨ x ∈ S2 := by
        intro F hFeq
        rw [hFeq] at hfree
        have hfv : ∀ x ∈ F, x ∈ (Core.ite a b c).fv := fun x hx => by
          simp only [Core.fv, List.mem_append]
          rcases ((hfree x).mp hx).1 with h | h <;> simp [h]
        have hF : ∀ x ∈ F, x ∈ fvs ∨ x ∈ S2 := fun x hx => hu.inScope x (hfv x hx) ((hfree x).mp hx).2
        have hbelF : Below k F := below_sub hf.below fun x hx => fv_syms _ _ (hfv x hx)
        have huse : ∀ (e : Core) (j : Nat), Fits k scope e → k + 2 ≤ j → (∀ x ∈ e.fv, x ∈ b.fv ∨ x ∈ c.fv) →
            Used j (.gen (k + 1) :: scope) S F [.gen (k + 1)] e.fv e.syms := fun e j hfe hj hs =>
          { inScope := fun x hx hsc => by
              simp only [List.mem_cons] at hsc ⊢
              rcases hsc with rfl | hsc
              · exact .inr (.inl rfl)
              · exact .inl ((hfree x).mpr ⟨hs x hx, hsc⟩)
            used := fun x hx hsy => by
              rcases hx with hx | hx
              · exact hu.used x (hF x hx) (fv_syms _ _ (hfv x hx))
              · simp only [List.mem_singleton] at hx
                subst hx
                exact absurd hsy (below_gen hfe.below (by omega))
            belowF := below_mono hbelF (by omega)
            belowS := below_singleton (by omega) }
        obtain ⟨b2, b3⟩ := parse_tidy b (fvs := F) (S2 := [.gen (k + 1)]) pb fb' hfull.2.1 ht.2.1
          (huse b _ fb (by omega) fun x hx => .inl hx)
        obtain ⟨c2, c3⟩ := parse_tidy c (fvs := F) (S2 := [.gen (k + 1)]) pc fc' hfull.2.2 ht.2.2
          (huse c _ fc (by omega) fun x hx => .inr hx)
        refine ⟨⟨b2, c2⟩, ?_, hF⟩
        simp only [conv, Exp.tidy]
        exact ⟨convVar_ok (.inr (by simp)), b3, c3⟩
      obtain ⟨a2, a3⟩ := parse_tidy a (fvs := fvs) (S2 := .gen k :: S2) pa fa' hfull.1 ht.1
        ((hu.sub (Nat.le_refl k) (by simp [Core.fv]; intro x hx; simp [hx]) (by simp [Core.syms]; intro x hx; simp [hx])).gen
          (by omega) (by omega) (below_gen fa.below (Nat.le_refl k)) fun h => hnew fa (Nat.le_refl k) h rfl)
      obtain ⟨⟨b2, c2⟩, h3, h4⟩ := hlam _ rfl
      refine ⟨?_, ?_⟩
      · simp only [Exp1.letsOk, Exp1.letssOk, and_true, true_and]
        exact ⟨below_gen hu.belowF (Nat.le_refl k), ⟨b2, c2⟩, a2⟩
      · rw [conv, conv]
        simp only [Exp.tidy, List.length_map]
        refine ⟨below_gen hu.belowS (Nat.le_refl k), ⟨h3, fun r hr => ?_⟩, ?_⟩
        · obtain ⟨x, hx, rfl⟩ := List.mem_map.mp hr
          exact convVar_ok (h4 x hx)
        · simp only [conv, convs, Exp.tidy, Exp.tidys, Exp.lets, Exp.letss]
          exact ⟨convVar_ok (.inr (by simp)), ⟨a3, trivial, by simp⟩, by simp⟩
    · have l1 := parse_le a pa
      have l2 := parse_le b pb
      obtain ⟨a2, a3⟩ := parse_tidy a (fvs := fvs) (S2 := S2) pa fa hfull.1 ht.1
        (hu.sub (Nat.le_refl k) (by simp [Core.fv]; intro x hx; simp [hx]) (by simp [Core.syms]; intro x hx; simp [hx]))
      obtain ⟨b2, b3⟩ := parse_tidy b (fvs := fvs) (S2 := S2) pb (fits_mono fb l1) hfull.2.1 ht.2.1
        (hu.sub l1 (by simp [Core.fv]; intro x hx; simp [hx]) (by simp [Core.syms]; intro x hx; simp [hx]))
      obtain ⟨c2, c3⟩ := parse_tidy c (fvs := fvs) (S2 := S2) pc (fits_mono fc (by omega)) hfull.2.2 ht.2.2
        (hu.sub (by omega) (by simp [Core.fv]; intro x hx; simp [hx]) (by simp [Core.syms]; intro x hx; simp [hx]))
      simp only [Exp1.letsOk, conv, Exp.tidy]
      exact ⟨⟨a2, b2, c2⟩, a3, b3, c3⟩
  | .seq a b, scope, k, _, _, S, fvs, S2, h, hf, hfull, ht, hu => by
    obtain ⟨a1, k1, b1, pa, pb, rfl⟩ := parse_seq h
    have l1 := parse_le a pa
    simp only [Core.full] at hfull
    simp only [Core.tidy] at ht
    obtain ⟨fa, fb⟩ := fits_seq hf
    obtain ⟨a2, a3⟩ := parse_tidy a (fvs := fvs) (S2 := S2) pa fa hfull.1 ht.1
      (hu.sub (Nat.le_refl k) (by simp [Core.fv]; intro x hx; simp [hx]) (by simp [Core.syms]; intro x hx; simp [hx]))
    obtain ⟨b2, b3⟩ := parse_tidy b (fvs := fvs) (S2 := S2) pb (fits_mono fb l1) hfull.2 ht.2
      (hu.sub l1 (by simp [Core.fv]; intro x hx; simp [hx]) (by simp [Core.syms]; intro x hx; simp [hx]))
    simp only [Exp1.letsOk, conv, Exp.tidy]
    exact ⟨⟨a2, b2⟩, a3, b3⟩
  | .bind y a b, scope, k, _, _, S, fvs, S2, h, hf, hfull, ht, hu => by
    obtain ⟨a1, k1, b1, pa, pb, rfl⟩ := parse_bind h
    have l1 := parse_le a pa
    simp only [Core.full] at hfull
    simp only [Core.tidy] at ht
    obtain ⟨fa, fb⟩ := fits_bind hf
    obtain ⟨a2, a3⟩ := parse_tidy a (fvs := fvs) (S2 := S2) pa fa hfull.1 ht.2.1
      (hu.sub (Nat.le_refl k) (by simp [Core.fv]; intro x hx; simp [hx]) (by simp [Core.syms]; intro x hx; simp [hx]))
    have hy : y ∈ (Core.bind y a b).syms := by simp [Core.syms]
    obtain ⟨b2, b3⟩ := parse_tidy b (S := y :: S) (fvs := fvs) (S2 := y :: S2) pb (fits_mono fb l1) hfull.2 ht.2.2
      { inScope := fun x hx hs => by
          by_cases hxy : x = y
          · simp [hxy]
          · simp only [List.mem_cons, hxy, false_or] at hs ⊢
            exact hu.inScope x (by simp [Core.fv, hx, hxy]) hs
        used := fun x hx hs => by
          by_cases hxy : x = y
          · simp [hxy]
          · simp only [List.mem_cons, hxy, false_or] at hx ⊢
            exact hu.used x hx (by simp [Core.syms, hs])
        belowF := below_mono hu.belowF l1
        belowS := below_mono (below_cons.mpr ⟨below_sub hf.below (by simp [hy]), hu.belowS⟩) l1 }
    simp only [Exp1.letsOk, conv, Exp.tidy]
    exact ⟨⟨fun h => ht.1 (hu.used y (.inl h) hy), a2, b2⟩, fun h => ht.1 (hu.used y (.inr h) hy), a3, b3⟩
  | .app f args, scope, k, _, _, S, fvs, S2, h, hf, hfull, ht, hu => by
    simp only [Core.full] at hfull
    simp only [Core.tidy] at ht
    obtain ⟨ff, fa⟩ := fits_app hf
    have huf : Used k scope S fvs S2 f.fv f.syms := hu.sub (Nat.le_refl k) (by simp [Core.fv]; intro x hx; simp [hx])
      (by simp [Core.syms]; intro x hx; simp [hx])
    have hua : Used k scope S fvs S2 (Core.fvs args) (Core.symss args) := hu.sub (Nat.le_refl k)
      (by simp [Core.fv]; intro x hx; simp [hx]) (by simp [Core.syms]; intro x hx; simp [hx])
    rcases parse_app h with ⟨_, f1, k1, args1, pf, pa, rfl⟩ | ⟨_, p, n, hb, ⟨_, args1, pa, rfl⟩ | ⟨hlt, args1, pa, rfl⟩⟩ |
      ⟨_, _, f1, k1, args1, pf, pa, rfl⟩
    · have l1 := parse_le f pf
      obtain ⟨f2, f3⟩ := parse_tidy f (fvs := fvs) (S2 := S2) pf (fits_mono ff (by omega)) hfull.1 ht.1
        (huf.sub (by omega) (fun _ h => h) fun _ h => h)
      obtain ⟨a2, a3⟩ := parseList_tidy args (fvs := fvs) (S2 := .gen k :: S2) pa (Fine.gen fa (by omega) (by omega)) hfull.2.1
        ht.2.1 (hua.gen (by omega) (by omega) (below_gen fa.below (Nat.le_refl k)) fun h =>
          below_gen fa.below (Nat.le_refl k) (fvs_symss _ _ h))
      simp only [Exp1.letsOk, conv, Exp.tidy, Exp.lets]
      exact ⟨⟨below_gen hu.belowF (Nat.le_refl k), f2, trivial, a2⟩, below_gen hu.belowS (Nat.le_refl k), f3,
        convVar_ok (.inr (by simp)), a3, by simp⟩
    · obtain ⟨a2, a3⟩ := parseList_tidy args (fvs := fvs) (S2 := S2) pa fa hfull.2.1 ht.2.1 hua
      simp only [Exp1.letsOk, conv, Exp.tidy]
      exact ⟨a2, a3⟩
    · have := builtin_full hfull.2.2 hb
      omega
    · have l1 := parse_le f pf
      obtain ⟨f2, f3⟩ := parse_tidy f (fvs := fvs) (S2 := S2) pf ff hfull.1 ht.1 huf
      obtain ⟨a2, a3⟩ := parseList_tidy args (fvs := fvs) (S2 := S2) pa (fitsAll_mono fa l1) hfull.2.1
        ht.2.1 (hua.sub l1 (fun _ h => h) fun _ h => h)
      simp only [Exp1.letsOk, conv, Exp.tidy]
      exact ⟨⟨f2, a2⟩, f3, a3, lets_apart ht.2.2 l1 (below_sub ff.below (lets_syms f))
        (below_sub fa.below (letss_symss args)) (conv_lets f fvs pf) (convs_letss args fvs pa)⟩
theorem parseList_tidy : ∀ (es : List Core) {scope : List Sym} {k k' : Nat} {l : List Exp1} {S fvs S2 : List Sym},
    parseList scope es k = some (l, k') → FitsAll k scope es → Core.fulls es → Core.tidys S es →
    Used k scope S fvs S2 (Core.fvs es) (Core.symss es) →
    Exp1.letssOk fvs l ∧ Exp.tidys S2 fvs.length (convs fvs l)
  | [], _, _, _, _, S, fvs, S2, h, _, _, _, _ => by
    simp only [parseList, Option.some.injEq, Prod.mk.injEq] at h
    rw [← h.1]; simp [Exp1.letssOk, convs, Exp.tidys]
  | e :: es, scope, k, _, _, S, fvs, S2, h, hf, hfull, ht, hu => by
    obtain ⟨a1, k1, b1, pa, pb, rfl⟩ := parseList_cons h
    have l1 := parse_le e pa
    simp only [Core.fulls] at hfull
    simp only [Core.tidys] at ht
    obtain ⟨fa, fb⟩ := fits_cons hf
    obtain ⟨a2, a3⟩ := parse_tidy e (fvs := fvs) (S2 := S2) pa fa hfull.1 ht.1
      (hu.sub (Nat.le_refl k) (by simp [Core.fvs]; intro x hx; simp [hx]) (by simp [Core.symss]; intro x hx; simp [hx]))
    obtain ⟨b2, b3⟩ := parseList_tidy es (fvs := fvs) (S2 := S2) pb (fitsAll_mono fb l1) hfull.2 ht.2.1
      (hu.sub l1 (by simp [Core.fvs]; intro x hx; simp [hx]) (by simp [Core.symss]; intro x hx; simp [hx]))
    simp only [Exp1.letssOk, convs, Exp.tidys]
    exact ⟨⟨a2, b2⟩, a3, b3, lets_apart ht.2.2 l1 (below_sub fa.below (lets_syms e))
      (below_sub fb.below (letss_symss es)) (conv_lets e fvs pa) (convs_letss es fvs pb)⟩
end

end Cora.Compile
