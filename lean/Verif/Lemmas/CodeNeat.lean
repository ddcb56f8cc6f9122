import Verif.Lemmas.CodeSem
import Verif.Lemmas.CompileClosed
import Verif.Lemmas.CompileTidy
import Verif.Props.CompileLive
/-
The output of the compiler can be written as C, given a program in which no function binds a variable twice.
-/
open Spec.Lang Spec.C
namespace Cora.Compile

/-! ### after closure conversion -/

mutual
/-- constants and globals can be written, primitives have all their operands and no function binds a variable twice -/
def Exp.neat (g : Gen) : Exp → Prop
  | .const d => DatumOk g d
  | .global x => .sym x ∈ g.globals
  | .ref _ => True
  | .closure ps b _ => ps.Nodup ∧ b.neat g
  | .ite a b c => a.neat g ∧ b.neat g ∧ c.neat g ∧ ∀ x ∈ a.lets, x ∉ b.lets ∧ x ∉ c.lets
  | .seq a b => a.neat g ∧ b.neat g ∧ ∀ x ∈ a.lets, x ∉ b.lets
  | .bind x e b => e.neat g ∧ b.neat g ∧ x ∉ e.lets ∧ ∀ y ∈ e.lets, y ∉ b.lets
  | .prim p args => primArity p = some args.length ∧ Exp.neats g args
  | .app f args => f.neat g ∧ Exp.neats g args
def Exp.neats (g : Gen) : List Exp → Prop
  | [] => True
  | e :: es => e.neat g ∧ Exp.neats g es
end

theorem mem_addSymbol {d : Datum} {gl : List Datum} : ∀ {x : Datum}, x ∈ addSymbol d gl ↔ x = d ∨ x ∈ gl := by
  intro x
  unfold addSymbol
  split
  · constructor
    · exact .inr
    · rintro (rfl | h) <;> assumption
  · simp

mutual
theorem globalsOf_grows : ∀ (e : Core) (env : List Spec.Lang.Sym) {gl : List Datum} {d : Datum}, d ∈ gl → d ∈ globalsOf env e gl
  | .lit _, _, _, _, h => by rw [globalsOf]; exact h
  | .quote _, _, _, _, h => by rw [globalsOf]; exact mem_addSymbol.mpr (.inr h)
  | .var _, _, _, _, h => by
    rw [globalsOf]
    split
    · exact h
    · exact mem_addSymbol.mpr (.inr h)
  | .lam _ b, _, _, _, h => by rw [globalsOf]; exact globalsOf_grows b _ h
  | .ite a b c, _, _, _, h => by
    rw [globalsOf]
    split
    · exact globalsOf_grows a _ (globalsOf_grows c _ (globalsOf_grows b _ h))
    · exact globalsOf_grows c _ (globalsOf_grows b _ (globalsOf_grows a _ h))
  | .seq a b, _, _, _, h => by rw [globalsOf]; exact globalsOf_grows b _ (globalsOf_grows a _ h)
  | .bind _ a b, _, _, _, h => by rw [globalsOf]; exact globalsOf_grows b _ (globalsOf_grows a _ h)
  | .app f args, _, _, _, h => by
    rw [globalsOf]
    split
    · exact globalsOfList_grows args _ h
    · exact globalsOfList_grows args _ (globalsOf_grows f _ h)
theorem globalsOfList_grows : ∀ (es : List Core) (env : List Spec.Lang.Sym) {gl : List Datum} {d : Datum}, d ∈ gl → d ∈ globalsOfList env es gl
  | [], _, _, _, h => by rw [globalsOfList]; exact h
  | e :: es, _, _, _, h => by rw [globalsOfList]; exact globalsOfList_grows es _ (globalsOf_grows e _ h)
end

theorem convs_length (fvs : List Spec.Lang.Sym) : ∀ es : List Exp1, (convs fvs es).length = es.length
  | [] => rfl
  | e :: es => by simp [convs, convs_length fvs es]

theorem same_gen {k n : Nat} {xs scope scope' : List Spec.Lang.Sym} (hb : Below k xs) (hn : k ≤ n) (h : ∀ x ∈ xs, x ∈ scope ↔ x ∈ scope') :
    ∀ x ∈ xs, x ∈ Spec.Lang.Sym.gen n :: scope ↔ x ∈ scope' := by
  intro x hx
  rw [List.mem_cons, ← h x hx]
  have := ne_gen hb hn hx
  simp [this]

theorem sub_append_l {α : Type} {a b : List α} {P : α → Prop} (h : ∀ x ∈ a ++ b, P x) : ∀ x ∈ a, P x := fun x hx => h x (by simp [hx])

mutual
theorem parse_neat {g : Gen} : ∀ (e : Core) {scope scope' : List Spec.Lang.Sym} {k k' : Nat} {e1 : Exp1} {gl : List Datum} (fvs : List Spec.Lang.Sym),
    parse scope e k = some (e1, k') → Below k e.syms → (∀ x ∈ e.syms, x ∈ scope ↔ x ∈ scope') → e.full → e.apart → e.writable →
    (∀ d ∈ globalsOf scope' e gl, d ∈ g.globals) → (conv fvs e1).neat g
  | .lit c, _, _, _, _, _, _, fvs, h, _, _, _, _, hw, _ => by
    simp only [parse, Option.some.injEq, Prod.mk.injEq] at h
    rw [← h.1, conv, Exp.neat]
    rw [Core.writable] at hw
    cases c <;> simp only [Const.datum, DatumOk]
    exact hw
  | .quote d, _, _, _, _, _, _, fvs, h, _, _, _, _, hw, hg => by
    simp only [parse, Option.some.injEq, Prod.mk.injEq] at h
    rw [← h.1, conv, Exp.neat]
    rw [Core.writable] at hw
    have := hg d (by rw [globalsOf]; exact mem_addSymbol.mpr (.inl rfl))
    cases d with
    | sym x => exact this
    | str s => exact hw
    | cons a b => exact hw
    | _ => trivial
  | .var x, _, _, _, _, _, _, fvs, h, _, hs, _, _, _, hg => by
    simp only [parse, Option.some.injEq, Prod.mk.injEq] at h
    rw [← h.1]
    split
    · trivial
    · rename_i hx
      rw [conv, Exp.neat]
      refine hg _ ?_
      rw [globalsOf, if_neg]
      · exact mem_addSymbol.mpr (.inl rfl)
      · exact fun h => hx ((hs x (by simp [Core.syms])).mpr h)
  | .lam ps b, _, _, _, _, _, _, fvs, h, hb, hs, hf, ha, hw, hg => by
    obtain ⟨b1, pb, rfl⟩ := parse_lam h
    simp only [Core.full] at hf
    simp only [Core.apart] at ha
    simp only [Core.writable] at hw
    simp only [conv, Exp.neat]
    refine ⟨ha.1, parse_neat b _ pb (below_sub hb (by simp [Core.syms]; intro x hx; simp [hx])) ?_ hf ha.2 hw hg⟩
    intro x hx
    have := hs x (by simp [Core.syms, hx])
    simp [this]
  | .ite a b c, scope, scope', k, _, _, gl, fvs, h, hbl, hs, hf, hap, hw, hg => by
    simp only [Core.full] at hf
    simp only [Core.apart] at hap
    simp only [Core.writable] at hw
    have ba : Below k a.syms := below_sub hbl (by simp [Core.syms]; intro x hx; simp [hx])
    have bb : Below k b.syms := below_sub hbl (by simp [Core.syms]; intro x hx; simp [hx])
    have bc : Below k c.syms := below_sub hbl (by simp [Core.syms]; intro x hx; simp [hx])
    have sa : ∀ x ∈ a.syms, x ∈ scope ↔ x ∈ scope' := fun x hx => hs x (by simp [Core.syms, hx])
    have sb : ∀ x ∈ b.syms, x ∈ scope ↔ x ∈ scope' := fun x hx => hs x (by simp [Core.syms, hx])
    have sc : ∀ x ∈ c.syms, x ∈ scope ↔ x ∈ scope' := fun x hx => hs x (by simp [Core.syms, hx])
    rw [globalsOf] at hg
    rcases parse_ite h with ⟨hi, b1, k1, c1, k2, a1, pb, pc, pa, rfl⟩ | ⟨hi, a1, k1, b1, k2, c1, pa, pb, pc, rfl⟩
    · have l1 := parse_le b pb
      have l2 := parse_le c pc
      rw [if_pos hi] at hg
      simp only [conv, convs, Exp.neat, Exp.neats, Exp.lets, List.not_mem_nil, not_false_eq_true, false_implies, implies_true, and_true,
        true_and, List.nodup_cons, List.nodup_nil]
      exact ⟨⟨parse_neat b _ pb (below_mono bb (by omega)) (same_gen bb (by omega) sb) hf.2.1 hap.2.1 hw.2.1
          fun d hd => hg d (globalsOf_grows a _ (globalsOf_grows c _ hd)),
        parse_neat c _ pc (below_mono bc (by omega)) (same_gen bc (by omega) sc) hf.2.2 hap.2.2.1 hw.2.2
          fun d hd => hg d (globalsOf_grows a _ hd)⟩,
        parse_neat a _ pa (below_mono ba (by omega)) (same_gen ba (by omega) sa) hf.1 hap.1 hw.1 hg⟩
    · have l1 := parse_le a pa
      have l2 := parse_le b pb
      rw [if_neg (by simp [hi])] at hg
      simp only [conv, Exp.neat]
      refine ⟨parse_neat a _ pa ba sa hf.1 hap.1 hw.1 fun d hd => hg d (globalsOf_grows c _ (globalsOf_grows b _ hd)),
        parse_neat b _ pb (below_mono bb (by omega)) sb hf.2.1 hap.2.1 hw.2.1 fun d hd => hg d (globalsOf_grows c _ hd),
        parse_neat c _ pc (below_mono bc (by omega)) sc hf.2.2 hap.2.2.1 hw.2.2 hg, fun x hx => ⟨?_, ?_⟩⟩
      · exact lets_apart (fun x hx => (hap.2.2.2 x hx).1) l1 (below_sub ba (lets_syms a)) (below_sub bb (lets_syms b)) (conv_lets a fvs pa)
          (conv_lets b fvs pb) x hx
      · exact lets_apart (fun x hx => (hap.2.2.2 x hx).2) l1 (below_sub ba (lets_syms a)) (below_sub bc (lets_syms c)) (conv_lets a fvs pa)
          (fun x hx => (conv_lets c fvs pc x hx).imp id fun h => h.mono l2 (Nat.le_refl _)) x hx
  | .seq a b, scope, scope', k, _, _, gl, fvs, h, hbl, hs, hf, hap, hw, hg => by
    simp only [Core.full] at hf
    simp only [Core.apart] at hap
    simp only [Core.writable] at hw
    have ba : Below k a.syms := below_sub hbl (by simp [Core.syms]; intro x hx; simp [hx])
    have bb : Below k b.syms := below_sub hbl (by simp [Core.syms]; intro x hx; simp [hx])
    obtain ⟨a1, k1, b1, pa, pb, rfl⟩ := parse_seq h
    have l1 := parse_le a pa
    rw [globalsOf] at hg
    simp only [conv, Exp.neat]
    exact ⟨parse_neat a _ pa ba (fun x hx => hs x (by simp [Core.syms, hx])) hf.1 hap.1 hw.1 fun d hd => hg d (globalsOf_grows b _ hd),
      parse_neat b _ pb (below_mono bb l1) (fun x hx => hs x (by simp [Core.syms, hx])) hf.2 hap.2.1 hw.2 hg,
      lets_apart hap.2.2 l1 (below_sub ba (lets_syms a)) (below_sub bb (lets_syms b)) (conv_lets a fvs pa) (conv_lets b fvs pb)⟩
  | .bind y a b, scope, scope', k, _, _, gl, fvs, h, hbl, hs, hf, hap, hw, hg => by
    simp only [Core.full] at hf
    simp only [Core.apart] at hap
    simp only [Core.writable] at hw
    have ba : Below k a.syms := below_sub hbl (by simp [Core.syms]; intro x hx; simp [hx])
    have bb : Below k b.syms := below_sub hbl (by simp [Core.syms]; intro x hx; simp [hx])
    have by' : Below k [y] := below_sub hbl (by simp [Core.syms])
    obtain ⟨a1, k1, b1, pa, pb, rfl⟩ := parse_bind h
    have l1 := parse_le a pa
    rw [globalsOf] at hg
    simp only [conv, Exp.neat]
    refine ⟨parse_neat a _ pa ba (fun x hx => hs x (by simp [Core.syms, hx])) hf.1 hap.1 hw.1 fun d hd => hg d (globalsOf_grows b _ hd),
      parse_neat b _ pb (below_mono bb l1) (fun x hx => ?_) hf.2 hap.2.1 hw.2 hg, fun hy => ?_,
      lets_apart hap.2.2.2 l1 (below_sub ba (lets_syms a)) (below_sub bb (lets_syms b)) (conv_lets a fvs pa) (conv_lets b fvs pb)⟩
    · rw [List.mem_cons, List.mem_cons, hs x (by simp [Core.syms, hx])]
    · rcases conv_lets a fvs pa y hy with h1 | h1
      · exact hap.2.2.1 h1
      · exact new_not h1 by' (Nat.le_refl _) (by simp)
  | .app f args, scope, scope', k, _, _, gl, fvs, h, hbl, hs, hf, hap, hw, hg => by
    simp only [Core.full] at hf
    simp only [Core.apart] at hap
    simp only [Core.writable] at hw
    have bf : Below k f.syms := below_sub hbl (by simp [Core.syms]; intro x hx; simp [hx])
    have ba : Below k (Core.symss args) := below_sub hbl (by simp [Core.syms]; intro x hx; simp [hx])
    have sf : ∀ x ∈ f.syms, x ∈ scope ↔ x ∈ scope' := fun x hx => hs x (by simp [Core.syms, hx])
    have sa : ∀ x ∈ Core.symss args, x ∈ scope ↔ x ∈ scope' := fun x hx => hs x (by simp [Core.syms, hx])
    rw [globalsOf] at hg
    rcases parse_app h with ⟨hl, f1, k1, args1, pf, pa, rfl⟩ | ⟨_, p, n, hb, ⟨hn, args1, pa, rfl⟩ | ⟨hlt, args1, pa, rfl⟩⟩ |
      ⟨_, hb, f1, k1, args1, pf, pa, rfl⟩
    · have l1 := parse_le f pf
      cases f with
      | lam ps b =>
        simp only [builtin] at hg
        obtain ⟨b1, _, e⟩ := parse_lam pf
        have := parse_neat (.lam ps b) fvs pf (below_mono bf (by omega)) sf hf.1 hap.1 hw.1
          fun d hd => hg d (globalsOfList_grows args _ hd)
        subst e
        simp only [conv, Exp.neat, Exp.lets, List.not_mem_nil, not_false_eq_true, false_implies, implies_true, and_true, true_and] at this ⊢
        exact ⟨this, parseList_neat args fvs pa (below_mono ba (by omega)) (same_gen ba (by omega) sa) hf.2.1 hap.2 hw.2 hg⟩
      | _ => simp [lamIf] at hl
    · rw [hb] at hg
      simp only [conv, Exp.neat]
      refine ⟨?_, parseList_neat args fvs pa ba sa hf.2.1 hap.2 hw.2 hg⟩
      rw [(builtin_eq hb).2, convs_length, parseList_length pa, hn]
    · have := builtin_full hf.2.2 hb
      omega
    · have l1 := parse_le f pf
      rw [hb] at hg
      simp only [conv, Exp.neat]
      exact ⟨parse_neat f fvs pf bf sf hf.1 hap.1 hw.1 fun d hd => hg d (globalsOfList_grows args _ hd),
        parseList_neat args fvs pa (below_mono ba l1) sa hf.2.1 hap.2 hw.2 hg⟩
theorem parseList_neat {g : Gen} : ∀ (es : List Core) {scope scope' : List Spec.Lang.Sym} {k k' : Nat} {l : List Exp1} {gl : List Datum}
    (fvs : List Spec.Lang.Sym), parseList scope es k = some (l, k') → Below k (Core.symss es) → (∀ x ∈ Core.symss es, x ∈ scope ↔ x ∈ scope') →
    Core.fulls es → Core.aparts es → Core.writables es → (∀ d ∈ globalsOfList scope' es gl, d ∈ g.globals) → Exp.neats g (convs fvs l)
  | [], _, _, _, _, _, _, fvs, h, _, _, _, _, _, _ => by
    simp only [parseList, Option.some.injEq, Prod.mk.injEq] at h
    rw [← h.1]; trivial
  | e :: es, scope, scope', k, _, _, gl, fvs, h, hbl, hs, hf, hap, hw, hg => by
    obtain ⟨a1, k1, b1, pa, pb, rfl⟩ := parseList_cons h
    have l1 := parse_le e pa
    simp only [Core.fulls] at hf
    simp only [Core.aparts] at hap
    simp only [Core.writables] at hw
    rw [globalsOfList] at hg
    simp only [convs, Exp.neats]
    exact ⟨parse_neat e fvs pa (below_sub hbl (by simp [Core.symss]; intro x hx; simp [hx])) (fun x hx => hs x (by simp [Core.symss, hx])) hf.1 hap.1
        hw.1 fun d hd => hg d (globalsOfList_grows es _ hd),
      parseList_neat es fvs pb (below_mono (below_sub hbl (by simp [Core.symss]; intro x hx; simp [hx])) l1)
        (fun x hx => hs x (by simp [Core.symss, hx])) hf.2 hap.2 hw.2 hg⟩
end

/-! ### after `tailify` -/

mutual
/-- an operand that can be written where the variables `vs` are declared -/
def Smp.neat (g : Gen) (V vs : List Spec.Lang.Sym) : Smp → Prop
  | .const d => DatumOk g d
  | .global x => .sym x ∈ g.globals
  | .ref r => RefOk vs r
  | .closure ps body frees => (ps.Nodup ∧ (∀ x ∈ ps, x ∈ V) ∧ body.neat g V ps) ∧ ∀ r ∈ frees, RefOk vs r
def Stm.neat (g : Gen) (V vs : List Spec.Lang.Sym) : Stm → Prop
  | .ret e => e.neat g V vs
  | .tail f args => f.neat g V vs ∧ Smp.neats g V vs args
  | .call f args val k _ => f.neat g V vs ∧ Smp.neats g V vs args ∧ val ∈ V ∧ val ∉ vs ∧ k.neat g V (val :: vs)
  | .bind x e s => e.neat g V vs ∧ x ∈ V ∧ x ∉ vs ∧ s.neat g V (x :: vs)
  | .prim x p args s => primArity p = some args.length ∧ Smp.neats g V vs args ∧ x ∈ V ∧ x ∉ vs ∧ s.neat g V (x :: vs)
  | .seq e s => e.neat g V vs ∧ s.neat g V vs
  | .ite e a b => e.neat g V vs ∧ a.neat g V vs ∧ b.neat g V vs
def Smp.neats (g : Gen) (V vs : List Spec.Lang.Sym) : List Smp → Prop
  | [] => True
  | e :: es => e.neat g V vs ∧ Smp.neats g V vs es
end

theorem refOk_mono {vs vs' : List Spec.Lang.Sym} (h : ∀ x ∈ vs, x ∈ vs') {r : Ref} (hr : RefOk vs r) : RefOk vs' r := by
  cases r with
  | loc x => exact h x hr
  | cap i => trivial

theorem smp_neat_mono {g : Gen} {V vs vs' : List Spec.Lang.Sym} (h : ∀ x ∈ vs, x ∈ vs') {e : Smp} (he : e.neat g V vs) : e.neat g V vs' := by
  cases e with
  | const d => exact he
  | global x => exact he
  | ref r => exact refOk_mono h he
  | closure ps body frees => exact ⟨he.1, fun r hr => refOk_mono h (he.2 r hr)⟩

theorem smps_neat_mono {g : Gen} {V vs vs' : List Spec.Lang.Sym} (h : ∀ x ∈ vs, x ∈ vs') : ∀ {es : List Smp}, Smp.neats g V vs es → Smp.neats g V vs' es
  | [], _ => trivial
  | _ :: _, he => ⟨smp_neat_mono h he.1, smps_neat_mono h he.2⟩

/-- what `next` makes of an operand can be written after what `e` has declared -/
def NextNeat (g : Gen) (V : List Spec.Lang.Sym) (K : Nat) (lets vs : List Spec.Lang.Sym) (k : Nat) {α : Type} (ok : List Spec.Lang.Sym → α → Prop)
    (next : α → Nat → Stm × Nat) : Prop :=
  ∀ ra k1 vs1, k ≤ k1 → (∀ x ∈ vs, x ∈ vs1) → (∀ x ∈ vs1, x ∈ vs ∨ x ∈ lets ∨ GenIn k k1 x) → ok vs1 ra → (next ra k1).2 ≤ K →
    (next ra k1).1.neat g V vs1

theorem ref_ok_refOk {S vs : List Spec.Lang.Sym} {n : Nat} (hs : ∀ x ∈ S, x ∈ vs) {r : Ref} (h : r.ok S n) : RefOk vs r := by
  cases r with
  | loc x => exact hs x h
  | cap i => trivial

/-- the counter and the variables, going on from one expression to the next -/
structure Going (k : Nat) (vs bound lets : List Spec.Lang.Sym) : Prop where
  below : Below k (vs ++ bound)
  fresh : ∀ x ∈ lets, x ∉ vs
  sub : ∀ x ∈ lets, x ∈ bound

theorem Going.next {k k1 : Nat} {vs vs1 bound1 lets1 bound2 lets2 : List Spec.Lang.Sym} {bound lets : List Spec.Lang.Sym} (h : Going k vs bound lets)
    (hk : k ≤ k1) (hv : ∀ x ∈ vs1, x ∈ vs ∨ x ∈ lets1 ∨ GenIn k k1 x) (hb1 : ∀ x ∈ lets1, x ∈ bound1) (h1 : ∀ x ∈ bound1, x ∈ bound)
    (h2 : ∀ x ∈ bound2, x ∈ bound) (h3 : ∀ x ∈ lets2, x ∈ lets) (h4 : ∀ x ∈ lets2, x ∈ bound2) (hd : ∀ x ∈ lets1, x ∉ lets2) :
    Going k1 vs1 bound2 lets2 where
  below := by
    intro n hn
    rcases List.mem_append.mp hn with hn | hn
    · rcases hv _ hn with hn | hn | ⟨i, _, h6, h7⟩
      · exact Nat.lt_of_lt_of_le (h.below n (by simp [hn])) hk
      · exact Nat.lt_of_lt_of_le (h.below n (by simp [h1 _ (hb1 _ hn)])) hk
      · cases h7; exact h6
    · exact Nat.lt_of_lt_of_le (h.below n (by simp [h2 _ hn])) hk
  fresh := by
    intro x hx hm
    rcases hv x hm with hn | hn | hn
    · exact h.fresh x (h3 x hx) hn
    · exact hd x hn hx
    · exact genIn_not h.below (by simp [h2 x (h4 x hx)]) hn
  sub := h4

theorem GenIn.trans {a b c : Nat} {x : Spec.Lang.Sym} {vs l1 l2 l : List Spec.Lang.Sym} {vs1 : List Spec.Lang.Sym} (hab : a ≤ b)(hbc : b ≤ c)
    (h1 : ∀ x ∈ vs1, x ∈ vs ∨ x ∈ l1 ∨ GenIn a b x) (hl1 : ∀ x ∈ l1, x ∈ l) (hl2 : ∀ x ∈ l2, x ∈ l)
    (h : x ∈ vs1 ∨ x ∈ l2 ∨ GenIn b c x) : x ∈ vs ∨ x ∈ l ∨ GenIn a c x := by
  rcases h with h | h | h
  · rcases h1 x h with h | h | h
    · exact .inl h
    · exact .inr (.inl (hl1 x h))
    · exact .inr (.inr (genIn_mono h (Nat.le_refl _) hbc))
  · exact .inr (.inl (hl2 x h))
  · exact .inr (.inr (genIn_mono h hab (Nat.le_refl _)))

variable {g : Gen} {V : List Spec.Lang.Sym} {K : Nat}

mutual
theorem tailify_neat (hK : ∀ i, i < K → .gen i ∈ V) : ∀ (e : Exp) {S vs : List Spec.Lang.Sym} {n : Nat} {next : Next} {k : Nat}, e.tidy S n → e.neat g →
    (∀ x ∈ S, x ∈ vs) → Going k vs e.bound e.lets → (∀ x ∈ e.bound, x ∈ V) → NextLe next.ap → (tailify e next k).2 ≤ K →
    NextNeat g V K e.lets vs k (fun vs1 => Smp.neat g V vs1) next.ap → (tailify e next k).1.neat g V vs
  | .const d, S, vs, _, next, k, ht, hn, hs, hg, hV, hle, hk, h => by
    rw [tailify] at hk ⊢
    exact h _ k vs (Nat.le_refl k) (fun _ h => h) (fun _ h => .inl h) hn hk
  | .global x, S, vs, _, next, k, ht, hn, hs, hg, hV, hle, hk, h => by
    rw [tailify] at hk ⊢
    exact h _ k vs (Nat.le_refl k) (fun _ h => h) (fun _ h => .inl h) hn hk
  | .ref r, S, vs, _, next, k, ht, hn, hs, hg, hV, hle, hk, h => by
    rw [tailify] at hk ⊢
    simp only [Exp.tidy] at ht
    exact h _ k vs (Nat.le_refl k) (fun _ h => h) (fun _ h => .inl h) (ref_ok_refOk hs ht) hk
  | .closure ps body frees, S, vs, _, next, k, ht, hn, hs, hg, hV, hle, hk, h => by
    rw [tailify] at hk ⊢
    simp only [Exp.tidy] at ht
    simp only [Exp.neat] at hn
    simp only [Exp.bound] at hV hg
    simp only at hk ⊢
    have hkb := tailify_le body .id k idLe
    have hk1 := hle (.closure ps (tailify body .id k).1 frees) (tailify body .id k).2
    refine h _ _ vs hkb (fun _ h => h) (fun _ h => .inl h) ⟨⟨hn.1, fun x hx => hV x (by simp [hx]), ?_⟩, fun r hr => ref_ok_refOk hs (ht.2 r hr)⟩ hk
    refine tailify_neat hK body ht.1 hn.2 (fun _ h => h) ⟨?_, fun x hx => tidy_lets body ht.1 x hx, fun x hx => lets_bound body x hx⟩
      (fun x hx => hV x (by simp [hx])) idLe (by omega) ?_
    · intro n hn
      exact hg.below n (by simp at hn ⊢; exact .inr hn)
    · intro ra k1 vs1 _ _ _ hra _
      exact hra
  | .ite a b c, S, vs, _, next, k, ht, hn, hs, hg, hV, hle, hk, h => by
    rw [tailify] at hk ⊢
    simp only [Exp.tidy] at ht
    simp only [Exp.neat] at hn
    simp only [Exp.bound] at hV hg
    simp only [Exp.lets] at hg h
    refine tailify_neat hK a ht.1 hn.1 hs ⟨below_sub hg.below (by simp; grind), fun x hx => hg.fresh x (by simp [hx]), lets_bound a⟩
      (fun x hx => hV x (by simp [hx])) (fun x k => ?_) hk ?_
    · simp only [Next.ap]
      exact Nat.le_trans (tailify_le b next k hle) (tailify_le c next _ hle)
    · intro ra k1 vs1 h1 h2 h3 h4 h5
      simp only [Next.ap] at h5 ⊢
      have hkc := tailify_le c next (tailify b next k1).2 hle
      have hkb := tailify_le b next k1 hle
      have gb : Going k1 vs1 b.bound b.lets := hg.next h1 h3 (lets_bound a) (by simp; grind) (by simp; grind) (by simp; grind) (lets_bound b)
        fun x hx => (hn.2.2.2 x hx).1
      have gc : Going (tailify b next k1).2 vs1 c.bound c.lets := hg.next (Nat.le_trans h1 hkb)
        (fun x hx => (h3 x hx).imp id fun h => h.imp id fun h => genIn_mono h (Nat.le_refl _) hkb) (lets_bound a) (by simp; grind) (by simp; grind)
        (by simp; grind) (lets_bound c) fun x hx => (hn.2.2.2 x hx).2
      refine ⟨h4, ?_, ?_⟩
      · refine tailify_neat hK b ht.2.1 hn.2.1 (fun x hx => h2 x (hs x hx)) gb (fun x hx => hV x (by simp [hx])) hle (by omega) ?_
        intro rb k2 vs2 q1 q2 q3 q4 q5
        exact h rb k2 vs2 (by omega) (fun x hx => q2 x (h2 x hx))
          (fun x hx => GenIn.trans h1 q1 h3 (by simp; grind) (by simp; grind) (q3 x hx)) q4 q5
      · refine tailify_neat hK c ht.2.2 hn.2.2.1 (fun x hx => h2 x (hs x hx)) gc (fun x hx => hV x (by simp [hx])) hle h5 ?_
        intro rb k2 vs2 q1 q2 q3 q4 q5
        exact h rb k2 vs2 (by omega) (fun x hx => q2 x (h2 x hx))
          (fun x hx => GenIn.trans (b := (tailify b next k1).2) (by omega) q1
            (fun x hx => (h3 x hx).imp id fun h => h.imp id fun h => genIn_mono h (Nat.le_refl _) hkb) (by simp; grind) (by simp; grind) (q3 x hx)) q4 q5
  | .seq a b, S, vs, _, next, k, ht, hn, hs, hg, hV, hle, hk, h => by
    rw [tailify] at hk ⊢
    simp only [Exp.tidy] at ht
    simp only [Exp.neat] at hn
    simp only [Exp.bound] at hV hg
    simp only [Exp.lets] at hg h
    refine tailify_neat hK a ht.1 hn.1 hs ⟨below_sub hg.below (by simp; grind), fun x hx => hg.fresh x (by simp [hx]), lets_bound a⟩
      (fun x hx => hV x (by simp [hx])) (fun x k => ?_) hk ?_
    · simp only [Next.ap]
      split
      · exact tailify_le b next k hle
      · exact tailify_le b next k hle
    · intro ra k1 vs1 h1 h2 h3 h4 h5
      simp only [Next.ap] at h5 ⊢
      have gb : Going k1 vs1 b.bound b.lets := hg.next h1 h3 (lets_bound a) (by simp; grind) (by simp; grind) (by simp; grind) (lets_bound b) hn.2.2
      have hb : (tailify b next k1).2 ≤ K → (tailify b next k1).1.neat g V vs1 := by
        intro h5
        refine tailify_neat hK b ht.2 hn.2.1 (fun x hx => h2 x (hs x hx)) gb (fun x hx => hV x (by simp [hx])) hle h5 ?_
        intro rb k2 vs2 q1 q2 q3 q4 q5
        exact h rb k2 vs2 (by omega) (fun x hx => q2 x (h2 x hx))
          (fun x hx => GenIn.trans h1 q1 h3 (by simp; grind) (by simp; grind) (q3 x hx)) q4 q5
      split at h5
      · rename_i hl
        rw [if_pos hl]
        exact hb h5
      · rename_i hl
        rw [if_neg hl]
        exact ⟨h4, hb h5⟩
  | .bind y a b, S, vs, _, next, k, ht, hn, hs, hg, hV, hle, hk, h => by
    rw [tailify] at hk ⊢
    simp only [Exp.tidy] at ht
    simp only [Exp.neat] at hn
    simp only [Exp.bound] at hV hg
    simp only [Exp.lets] at hg h
    refine tailify_neat hK a ht.2.1 hn.1 hs ⟨below_sub hg.below (by simp; grind), fun x hx => hg.fresh x (by simp [hx]), lets_bound a⟩
      (fun x hx => hV x (by simp [hx])) (fun x k => ?_) hk ?_
    · simp only [Next.ap]
      exact tailify_le b next k hle
    · intro ra k1 vs1 h1 h2 h3 h4 h5
      simp only [Next.ap] at h5 ⊢
      have hy : y ∉ vs1 := by
        intro hm
        rcases h3 y hm with hm | hm | hm
        · exact hg.fresh y (by simp) hm
        · exact hn.2.2.1 hm
        · exact genIn_not hg.below (by simp) hm
      have gb : Going k1 vs1 b.bound b.lets := hg.next h1 h3 (lets_bound a) (by simp; grind) (by simp; grind) (by simp; grind) (lets_bound b) hn.2.2.2
      have hyb : Below k1 [y] := below_mono (below_sub hg.below (by simp)) h1
      have gb' : Going k1 (y :: vs1) b.bound b.lets := ⟨below_cons.mpr ⟨hyb, gb.below⟩, fun x hx hm => by
        rcases List.mem_cons.mp hm with rfl | hm
        · exact tidy_lets b ht.2.2 x hx (by simp)
        · exact gb.fresh x hx hm, gb.sub⟩
      refine ⟨h4, hV y (by simp), hy, ?_⟩
      refine tailify_neat hK b ht.2.2 hn.2.1 (fun x hx => ?_) gb' (fun x hx => hV x (by simp [hx])) hle h5 ?_
      · rcases List.mem_cons.mp hx with rfl | hx
        · simp
        · simp [h2 x (hs x hx)]
      intro rb k2 vs2 q1 q2 q3 q4 q5
      refine h rb k2 vs2 (by omega) (fun x hx => q2 x (by simp [h2 x hx]))
        (fun x hx => GenIn.trans (vs1 := y :: vs1) (l1 := y :: a.lets) (l2 := b.lets) h1 q1 (fun x hx => ?_) (by simp; grind) (by simp; grind) (q3 x hx)) q4 q5
      rcases List.mem_cons.mp hx with rfl | hx
      · simp
      · rcases h3 x hx with h | h | h <;> simp [h]
  | .prim p args, S, vs, _, next, k, ht, hn, hs, hg, hV, hle, hk, h => by
    rw [tailify] at hk ⊢
    simp only [Exp.tidy] at ht
    simp only [Exp.neat] at hn
    simp only [Exp.bound] at hV hg
    simp only [Exp.lets] at hg h
    refine tailifyList_neat hK args ht hn.2 hs hg hV (fun xs k => ?_) hk ?_
    · simp only [finishPrim]
      exact Nat.le_trans (Nat.le_succ k) (hle _ _)
    · intro rs k1 vs1 h1 h2 h3 h4 h5
      simp only [finishPrim] at h5 ⊢
      have := hle (.ref (.loc (.gen k1))) (k1 + 1)
      have hnew : Spec.Lang.Sym.gen k1 ∉ vs1 := by
        intro hm
        rcases h3 _ hm with hm | hm | ⟨i, _, h6, h7⟩
        · have := hg.below k1 (by simp [hm]); omega
        · have := hg.below k1 (by simp [hg.sub _ hm]); omega
        · cases h7; omega
      refine ⟨by rw [hn.1, h4.1], h4.2, hK k1 (by omega), hnew, ?_⟩
      refine h _ (k1 + 1) (.gen k1 :: vs1) (by omega) (fun x hx => by simp [h2 x hx]) (fun x hx => ?_) (by simp [Smp.neat, RefOk]) h5
      rcases List.mem_cons.mp hx with rfl | hx
      · exact .inr (.inr ⟨k1, by omega, by omega, rfl⟩)
      · exact (h3 x hx).imp id fun h => h.imp id fun h => genIn_mono h (Nat.le_refl _) (by omega)
  | .app f args, S, vs, _, next, k, ht, hn, hs, hg, hV, hle, hk, h => by
    rw [tailify] at hk ⊢
    simp only [Exp.tidy] at ht
    simp only [Exp.neat] at hn
    simp only [Exp.bound] at hV hg
    simp only [Exp.lets] at hg h
    have hfin : ∀ rf xs k, k ≤ (finishCall next rf xs k).2 := by
      intro rf xs k
      cases next with
      | id => simp [finishCall]
      | fn g =>
        simp only [finishCall]
        exact Nat.le_trans (Nat.le_succ k) (hle (.ref (.loc (.gen k))) (k + 1))
    refine tailify_neat hK f ht.1 hn.1 hs ⟨below_sub hg.below (by simp; grind), fun x hx => hg.fresh x (by simp [hx]), lets_bound f⟩
      (fun x hx => hV x (by simp [hx])) (fun x k => ?_) hk ?_
    · simp only [Next.ap]
      exact tailifyList_le args _ k fun xs k => hfin x xs k
    · intro rf k1 vs1 h1 h2 h3 h4 h5
      simp only [Next.ap] at h5 ⊢
      have ga : Going k1 vs1 (Exp.bounds args) (Exp.letss args) := hg.next h1 h3 (lets_bound f) (by simp; grind) (by simp; grind) (by simp; grind)
        (letss_bounds args) ht.2.2
      refine tailifyList_neat hK args ht.2.1 hn.2 (fun x hx => h2 x (hs x hx)) ga (fun x hx => hV x (by simp [hx])) (fun xs k => hfin rf xs k) h5 ?_
      intro rs k2 vs2 q1 q2 q3 q4 q5
      have hall : ∀ x ∈ vs2, x ∈ vs ∨ x ∈ f.lets ++ Exp.letss args ∨ GenIn k k2 x := fun x hx =>
        GenIn.trans h1 q1 h3 (by simp; grind) (by simp; grind) (q3 x hx)
      have hf2 : rf.neat g V vs2 := smp_neat_mono q2 h4
      unfold finishCall at q5 ⊢
      cases next with
      | id => exact ⟨hf2, q4.2⟩
      | fn nx =>
        simp only at q5 ⊢
        have := hle (.ref (.loc (.gen k2))) (k2 + 1)
        simp only [Next.ap] at this
        have hnew : Spec.Lang.Sym.gen k2 ∉ vs2 := by
          intro hm
          rcases hall _ hm with hm | hm | ⟨i, _, h6, h7⟩
          · have := hg.below k2 (by simp [hm]); omega
          · have := hg.below k2 (by rw [List.mem_append]; exact .inr (hg.sub _ hm)); omega
          · cases h7; omega
        refine ⟨hf2, q4.2, hK k2 (by omega), hnew, ?_⟩
        refine h (.ref (.loc (.gen k2))) (k2 + 1) (.gen k2 :: vs2) (by omega) (fun x hx => by simp [q2 x (h2 x hx)]) (fun x hx => ?_)
          (by simp [Smp.neat, RefOk]) q5
        rcases List.mem_cons.mp hx with rfl | hx
        · exact .inr (.inr ⟨k2, by omega, by omega, rfl⟩)
        · exact (hall x hx).imp id fun h => h.imp id fun h => genIn_mono h (Nat.le_refl _) (by omega)
theorem tailifyList_neat (hK : ∀ i, i < K → .gen i ∈ V) : ∀ (es : List Exp) {S vs : List Spec.Lang.Sym} {n : Nat} {nx : List Smp → Nat → Stm × Nat}
    {k : Nat}, Exp.tidys S n es → Exp.neats g es → (∀ x ∈ S, x ∈ vs) → Going k vs (Exp.bounds es) (Exp.letss es) → (∀ x ∈ Exp.bounds es, x ∈ V) →
    (∀ xs k, k ≤ (nx xs k).2) → (tailifyList es nx k).2 ≤ K →
    NextNeat g V K (Exp.letss es) vs k (fun vs1 rs => rs.length = es.length ∧ Smp.neats g V vs1 rs) nx → (tailifyList es nx k).1.neat g V vs
  | [], S, vs, _, nx, k, ht, hn, hs, hg, hV, hle, hk, h => by
    rw [tailifyList] at hk ⊢
    exact h _ k vs (Nat.le_refl k) (fun _ h => h) (fun _ h => .inl h) ⟨rfl, trivial⟩ hk
  | e :: es, S, vs, _, nx, k, ht, hn, hs, hg, hV, hle, hk, h => by
    rw [tailifyList] at hk ⊢
    simp only [Exp.tidys] at ht
    simp only [Exp.neats] at hn
    simp only [Exp.bounds] at hV hg
    simp only [Exp.letss] at hg h
    refine tailify_neat hK e ht.1 hn.1 hs ⟨below_sub hg.below (by simp; grind), fun x hx => hg.fresh x (by simp [hx]), lets_bound e⟩
      (fun x hx => hV x (by simp [hx])) (fun x k => ?_) hk ?_
    · simp only [Next.ap]
      exact tailifyList_le es _ k fun xs k => hle _ k
    · intro ra k1 vs1 h1 h2 h3 h4 h5
      simp only [Next.ap] at h5 ⊢
      have ga : Going k1 vs1 (Exp.bounds es) (Exp.letss es) := hg.next h1 h3 (lets_bound e) (by simp; grind) (by simp; grind) (by simp; grind)
        (letss_bounds es) ht.2.2
      refine tailifyList_neat hK es ht.2.1 hn.2 (fun x hx => h2 x (hs x hx)) ga (fun x hx => hV x (by simp [hx])) (fun xs k => hle _ k) h5 ?_
      intro rs k2 vs2 q1 q2 q3 q4 q5
      exact h _ k2 vs2 (by omega) (fun x hx => q2 x (h2 x hx)) (fun x hx => GenIn.trans h1 q1 h3 (by simp; grind) (by simp; grind) (q3 x hx))
        ⟨by simp [q4.1], smp_neat_mono q2 h4, q4.2⟩ q5
end

end Cora.Compile
