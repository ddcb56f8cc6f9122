import Verif.Lemmas.CodeNeat
import Verif.Lemmas.CompileWhole
/-
The functions and continuations that the compiler makes can be written as C.
-/
open Spec.Lang Spec.C
namespace Cora.Compile
variable {g : Gen} {V : List Spec.Lang.Sym}

/-! ### free variables -/

theorem refOk_free {vs : List Spec.Lang.Sym} {r : Ref} (h : RefOk vs r) : ∀ x ∈ r.free, x ∈ vs := by
  cases r with
  | loc x => intro y hy; rw [Ref.free, List.mem_singleton] at hy; subst hy; exact h
  | cap i => intro y hy; simp [Ref.free] at hy

theorem refOk_of_free {vs : List Spec.Lang.Sym} {r : Ref} (h : ∀ x ∈ r.free, x ∈ vs) : RefOk vs r := by
  cases r with
  | loc x => exact h x (by simp [Ref.free])
  | cap i => trivial

mutual
theorem smp_neat_free : ∀ (e : Smp) {vs : List Spec.Lang.Sym}, e.neat g V vs → ∀ x ∈ e.free, x ∈ vs
  | .const _, _, _, x, hx => by simp [Smp.free] at hx
  | .global _, _, _, x, hx => by simp [Smp.free] at hx
  | .ref r, vs, h, x, hx => by
    rw [Smp.free] at hx
    exact refOk_free h x hx
  | .closure ps body frees, vs, h, x, hx => by
    rw [Smp.neat] at h
    rw [Smp.free, mem_foldl_refs, mem_union, mem_diff] at hx
    rcases hx with (hx | hx) | ⟨r, hr, hx⟩
    · simp at hx
    · exact absurd (stm_neat_free body h.1.2.2 x hx.1) hx.2
    · exact refOk_free (h.2 r hr) x hx
theorem stm_neat_free : ∀ (s : Stm) {vs : List Spec.Lang.Sym}, s.neat g V vs → ∀ x ∈ s.free, x ∈ vs
  | .ret e, vs, h, x, hx => by
    rw [Stm.free] at hx
    exact smp_neat_free e h x hx
  | .tail f args, vs, h, x, hx => by
    rw [Stm.neat] at h
    rw [Stm.free, mem_sfrees_acc, mem_union] at hx
    rcases hx with (hx | hx) | hx
    · simp at hx
    · exact smp_neat_free f h.1 x hx
    · exact smps_neat_free args h.2 x hx
  | .call f args val k live, vs, h, x, hx => by
    rw [Stm.neat] at h
    rw [mem_call_free] at hx
    rcases hx with hx | hx | hx
    · exact smp_neat_free f h.1 x hx
    · exact smps_neat_free args h.2.1 x hx
    · have := stm_neat_free k h.2.2.2.2 x hx.1
      rcases List.mem_cons.mp this with h1 | h1
      · exact absurd h1 hx.2
      · exact h1
  | .bind y e s, vs, h, x, hx => by
    rw [Stm.neat] at h
    rw [Stm.free, mem_union, mem_diff, List.mem_singleton] at hx
    rcases hx with hx | hx
    · exact smp_neat_free e h.1 x hx
    · have := stm_neat_free s h.2.2.2 x hx.1
      rcases List.mem_cons.mp this with h1 | h1
      · exact absurd h1 hx.2
      · exact h1
  | .prim y p args s, vs, h, x, hx => by
    rw [Stm.neat] at h
    rw [Stm.free, mem_union, mem_diff, List.mem_singleton] at hx
    rcases hx with hx | hx
    · exact smps_neat_free args h.2.1 x hx
    · have := stm_neat_free s h.2.2.2.2 x hx.1
      rcases List.mem_cons.mp this with h1 | h1
      · exact absurd h1 hx.2
      · exact h1
  | .seq e s, vs, h, x, hx => by
    rw [Stm.neat] at h
    rw [Stm.free, mem_union, mem_union] at hx
    rcases hx with (hx | hx) | hx
    · simp at hx
    · exact smp_neat_free e h.1 x hx
    · exact stm_neat_free s h.2 x hx
  | .ite e a b, vs, h, x, hx => by
    rw [Stm.neat] at h
    rw [Stm.free, mem_union, mem_union, mem_union] at hx
    rcases hx with ((hx | hx) | hx) | hx
    · simp at hx
    · exact smp_neat_free e h.1 x hx
    · exact stm_neat_free a h.2.1 x hx
    · exact stm_neat_free b h.2.2 x hx
theorem smps_neat_free : ∀ (es : List Smp) {vs : List Spec.Lang.Sym}, Smp.neats g V vs es → ∀ x ∈ Smp.frees [] es, x ∈ vs
  | [], _, _, x, hx => by simp [Smp.frees] at hx
  | e :: es, vs, h, x, hx => by
    rw [Smp.neats] at h
    rw [mem_sfrees_cons] at hx
    rcases hx with hx | hx
    · exact smp_neat_free e h.1 x hx
    · exact smps_neat_free es h.2 x hx
end

/-! ### numbered functions -/

/-- statements with continuations in place that can be written where `vs` are declared -/
def LStm.neat (g : Gen) (n : Nat) (V : List Spec.Lang.Sym) : List Spec.Lang.Sym → LStm → Prop
  | vs, .ret e => SmpOk g n vs e
  | vs, .tail f args => SmpOk g n vs f ∧ ∀ a ∈ args, SmpOk g n vs a
  | vs, .call f args val k live => SmpOk g n vs f ∧ (∀ a ∈ args, SmpOk g n vs a) ∧ val ∈ V ∧ (∀ x ∈ live, x ∈ vs) ∧
      (val :: live).Nodup ∧ k.neat g n V (val :: live)
  | vs, .bind x e s => SmpOk g n vs e ∧ x ∈ V ∧ x ∉ vs ∧ s.neat g n V (x :: vs)
  | vs, .prim x p args s => primArity p = some args.length ∧ (∀ a ∈ args, SmpOk g n vs a) ∧ x ∈ V ∧ x ∉ vs ∧ s.neat g n V (x :: vs)
  | vs, .seq e s => SmpOk g n vs e ∧ s.neat g n V vs
  | vs, .ite e a b => SmpOk g n vs e ∧ a.neat g n V vs ∧ b.neat g n V vs

/-- a continuation that can be written -/
def ContOk (g : Gen) (n : Nat) (V : List Spec.Lang.Sym) (c : Cont) : Prop :=
  c.val ∈ V ∧ (∀ x ∈ c.live, x ∈ V) ∧ (c.val :: c.live).Nodup ∧ StmOk g n V [] (c.val :: c.live) c.body

theorem smpOk_mono {n : Nat} {vs vs' : List Spec.Lang.Sym} (h : ∀ x ∈ vs, x ∈ vs') {e : CSmp} (he : SmpOk g n vs e) : SmpOk g n vs' e := by
  cases e with
  | const d => exact he
  | global x => exact he
  | ref r => exact refOk_mono h he
  | closure label a b frees => exact ⟨he.1, fun r hr => refOk_mono h (he.2 r hr)⟩

theorem mem_others {x : Spec.Lang.Sym} {vs : List Spec.Lang.Sym} (hx : x ∉ vs) : ∀ y ∈ vs, y ∈ vs.filter (· ≠ x) := by
  intro y hy
  rw [List.mem_filter]
  exact ⟨hy, by simp; rintro rfl; exact hx hy⟩

theorem collectCont_neat {n : Nat} : ∀ (s : LStm) {vs here : List Spec.Lang.Sym} (cs : List Cont), s.neat g n V (here ++ vs) →
    (∀ x ∈ here ++ vs, x ∈ V) →
    StmOk g n V vs here (collectCont s cs).1 ∧ ∀ c ∈ (collectCont s cs).2, c ∈ cs ∨ ContOk g n V c
  | .ret e, _, _, cs, h, _ => ⟨h, fun _ h => .inl h⟩
  | .tail f args, _, _, cs, h, _ => ⟨h, fun _ h => .inl h⟩
  | .call f args val k live, vs, here, cs, h, hV => by
    rw [LStm.neat] at h
    obtain ⟨h1, h2, h3, h4, h5, h6⟩ := h
    have ih := collectCont_neat k (vs := []) (here := val :: live) cs (by rw [List.append_nil]; exact h6) (by
      intro x hx
      rw [List.append_nil] at hx
      rcases List.mem_cons.mp hx with rfl | hx
      · exact h3
      · exact hV x (h4 x hx))
    simp only [collectCont]
    refine ⟨⟨h1, h2, h4⟩, fun c hc => ?_⟩
    rcases List.mem_cons.mp hc with rfl | hc
    · exact .inr ⟨h3, fun x hx => hV x (h4 x hx), h5, ih.1⟩
    · exact ih.2 c hc
  | .bind x e s, vs, here, cs, h, hV => by
    rw [LStm.neat] at h
    obtain ⟨h1, h2, h3, h4⟩ := h
    have ih := collectCont_neat s (vs := vs) (here := x :: here) cs h4 (by
      intro y hy
      rcases List.mem_cons.mp hy with rfl | hy
      · exact h2
      · exact hV y hy)
    simp only [collectCont]
    exact ⟨⟨h2, fun hx => h3 (by simp [hx]), smpOk_mono (mem_others h3) h1, ih.1⟩, ih.2⟩
  | .prim x p args s, vs, here, cs, h, hV => by
    rw [LStm.neat] at h
    obtain ⟨h0, h1, h2, h3, h4⟩ := h
    have ih := collectCont_neat s (vs := vs) (here := x :: here) cs h4 (by
      intro y hy
      rcases List.mem_cons.mp hy with rfl | hy
      · exact h2
      · exact hV y hy)
    simp only [collectCont]
    exact ⟨⟨h2, fun hx => h3 (by simp [hx]), h0, fun a ha => smpOk_mono (mem_others h3) (h1 a ha), ih.1⟩, ih.2⟩
  | .seq e s, vs, here, cs, h, hV => by
    rw [LStm.neat] at h
    have ih := collectCont_neat s (vs := vs) (here := here) cs h.2 hV
    simp only [collectCont]
    exact ⟨⟨h.1, ih.1⟩, ih.2⟩
  | .ite e a b, vs, here, cs, h, hV => by
    rw [LStm.neat] at h
    have iha := collectCont_neat a (vs := here ++ vs) (here := []) cs h.2.1 hV
    have ihb := collectCont_neat b (vs := here ++ vs) (here := []) (collectCont a cs).2 h.2.2 hV
    simp only [collectCont]
    refine ⟨⟨h.1, iha.1, ihb.1⟩, fun c hc => ?_⟩
    rcases ihb.2 c hc with hc | hc
    · exact iha.2 c hc
    · exact .inr hc

theorem lambdaFinal_neat {n : Nat} (hV : VarsOk g V) {ps : List Spec.Lang.Sym} (hp : ps.Nodup) (hpV : ∀ x ∈ ps, x ∈ V) {s : LStm}
    (h : s.neat g n V ps) : LamOk g n (lambdaFinal ps s) := by
  have := collectCont_neat s (vs := []) (here := ps) [] (by rw [List.append_nil]; exact h) (by rw [List.append_nil]; exact hpV)
  refine ⟨V, hV, hpV, hp, this.1, fun c hc => ?_⟩
  simp only [lambdaFinal, List.mem_reverse] at hc
  rcases this.2 c hc with hc | hc
  · simp at hc
  · exact hc

theorem grows_le {a b : List Lam} (h : ∃ n, b = a ++ n) : a.length ≤ b.length := by
  obtain ⟨n, rfl⟩ := h
  simp

/-- the functions added can be written -/
def Added (g : Gen) (n : Nat) (code code' : List Lam) : Prop := ∀ l ∈ code', l ∈ code ∨ LamOk g n l

theorem Added.trans {n : Nat} {a b c : List Lam} (h : Added g n a b) (h' : Added g n b c) : Added g n a c := fun l hl =>
  (h' l hl).elim (fun hl => h l hl) .inr

theorem livenesses_length : ∀ es : List Smp, (Smp.livenesses es).length = es.length
  | [] => rfl
  | e :: es => by simp [Smp.livenesses, livenesses_length es]

theorem collectSmps_length : ∀ (es : List Smp) (code : List Lam), (collectSmps es code).1.length = es.length
  | [], _ => rfl
  | e :: es, code => by simp [collectSmps, collectSmps_length es]

mutual
theorem collectSmp_neat {n : Nat} (hV : VarsOk g V) : ∀ (e : Smp) {vs vs' : List Spec.Lang.Sym} (code : List Lam), e.neat g V vs →
    (∀ x ∈ e.free, x ∈ vs') → (collectSmp e.liveness code).2.length ≤ n →
    SmpOk g n vs' (collectSmp e.liveness code).1 ∧ Added g n code (collectSmp e.liveness code).2
  | .const d, vs, vs', code, h, hf, hn => by
    simp only [Smp.liveness, collectSmp]
    exact ⟨h, fun _ h => .inl h⟩
  | .global d, vs, vs', code, h, hf, hn => by
    simp only [Smp.liveness, collectSmp]
    exact ⟨h, fun _ h => .inl h⟩
  | .ref r, vs, vs', code, h, hf, hn => by
    simp only [Smp.liveness, collectSmp]
    rw [Smp.free] at hf
    exact ⟨refOk_of_free hf, fun _ h => .inl h⟩
  | .closure ps body frees, vs, vs', code, h, hf, hn => by
    rw [Smp.neat] at h
    obtain ⟨⟨h1, h2, h3⟩, h4⟩ := h
    simp only [Smp.liveness, collectSmp, List.length_append, List.length_singleton] at hn ⊢
    have ih := collectStm_neat (n := n) hV body (vs' := ps) code h3 (fun _ h => h) h2 (stm_neat_free body h3) (by omega)
    refine ⟨⟨by omega, fun r hr => refOk_of_free fun x hx => hf x ?_⟩, fun l hl => ?_⟩
    · rw [Smp.free, mem_foldl_refs]
      exact .inr ⟨r, hr, hx⟩
    · rcases List.mem_append.mp hl with hl | hl
      · exact ih.2 l hl
      · rw [List.mem_singleton.mp hl]
        exact .inr (lambdaFinal_neat hV h1 h2 ih.1)
theorem collectStm_neat {n : Nat} (hV : VarsOk g V) : ∀ (s : Stm) {vs vs' : List Spec.Lang.Sym} (code : List Lam), s.neat g V vs →
    (∀ x ∈ vs', x ∈ vs) → (∀ x ∈ vs', x ∈ V) → (∀ x ∈ s.free, x ∈ vs') → (collectStm s.liveness code).2.length ≤ n →
    (collectStm s.liveness code).1.neat g n V vs' ∧ Added g n code (collectStm s.liveness code).2
  | .ret e, vs, vs', code, h, hs, hvV, hf, hn => by
    simp only [Stm.liveness, collectStm] at hn ⊢
    rw [Stm.free] at hf
    exact collectSmp_neat hV e code h hf hn
  | .tail f args, vs, vs', code, h, hs, hvV, hf, hn => by
    rw [Stm.neat] at h
    simp only [Stm.liveness, collectStm] at hn ⊢
    have g2 := grows_le (collectSmps_spec args (collectSmp f.liveness code).2).grows
    have i1 := collectSmp_neat (n := n) (vs' := vs') hV f code h.1
      (fun x hx => hf x (by rw [Stm.free, mem_sfrees_acc, mem_union]; exact .inl (.inr hx))) (by omega)
    have i2 := collectSmps_neat (n := n) (vs' := vs') hV args (collectSmp f.liveness code).2 h.2
      (fun x hx => hf x (by rw [Stm.free, mem_sfrees_acc, mem_union]; exact .inr hx)) (by omega)
    exact ⟨⟨i1.1, i2.1⟩, i1.2.trans i2.2⟩
  | .call f args val k live, vs, vs', code, h, hs, hvV, hf, hn => by
    rw [Stm.neat] at h
    obtain ⟨h1, h2, h3, h4, h5⟩ := h
    simp only [Stm.liveness, collectStm] at hn ⊢
    have g2 := grows_le (collectSmps_spec args (collectSmp f.liveness code).2).grows
    have g3 := grows_le (collectStm_spec k (collectSmps (Smp.livenesses args) (collectSmp f.liveness code).2).2).grows
    have hlive : ∀ x ∈ diff k.free [val], x ∈ vs' := fun x hx => by
      rw [mem_diff, List.mem_singleton] at hx
      exact hf x (mem_call_free.mpr (.inr (.inr hx)))
    have i1 := collectSmp_neat (n := n) (vs' := vs') hV f code h1 (fun x hx => hf x (mem_call_free.mpr (.inl hx))) (by omega)
    have i2 := collectSmps_neat (n := n) (vs' := vs') hV args (collectSmp f.liveness code).2 h2
      (fun x hx => hf x (mem_call_free.mpr (.inr (.inl hx)))) (by omega)
    have i3 := collectStm_neat (n := n) (vs' := val :: diff k.free [val]) hV k
      (collectSmps (Smp.livenesses args) (collectSmp f.liveness code).2).2 h5 (fun x hx => by
        rcases List.mem_cons.mp hx with rfl | hx
        · simp
        · simp [hs x (hlive x hx)]) (fun x hx => by
        rcases List.mem_cons.mp hx with rfl | hx
        · exact h3
        · exact hvV x (hlive x hx)) (fun x hx => by
        by_cases hv : x = val
        · simp [hv]
        · simp [mem_diff, hx, hv]) (by omega)
    exact ⟨⟨i1.1, i2.1, h3, hlive, List.nodup_cons.mpr ⟨by simp [mem_diff], nodup_diff (sfree_nodup k)⟩, i3.1⟩, (i1.2.trans i2.2).trans i3.2⟩
  | .bind y e s, vs, vs', code, h, hs, hvV, hf, hn => by
    rw [Stm.neat] at h
    obtain ⟨h1, h2, h3, h4⟩ := h
    simp only [Stm.liveness, collectStm] at hn ⊢
    have g2 := grows_le (collectStm_spec s (collectSmp e.liveness code).2).grows
    have i1 := collectSmp_neat (n := n) (vs' := vs') hV e code h1 (fun x hx => hf x (by rw [Stm.free, mem_union]; exact .inl hx)) (by omega)
    have i2 := collectStm_neat (n := n) (vs' := y :: vs') hV s (collectSmp e.liveness code).2 h4 (fun x hx => by
        rcases List.mem_cons.mp hx with rfl | hx
        · simp
        · simp [hs x hx]) (fun x hx => by
        rcases List.mem_cons.mp hx with rfl | hx
        · exact h2
        · exact hvV x hx) (fun x hx => by
        by_cases hv : x = y
        · simp [hv]
        · rw [List.mem_cons]
          exact .inr (hf x (by rw [Stm.free, mem_union, mem_diff, List.mem_singleton]; exact .inr ⟨hx, hv⟩))) (by omega)
    exact ⟨⟨i1.1, h2, fun hy => h3 (hs y hy), i2.1⟩, i1.2.trans i2.2⟩
  | .prim y p args s, vs, vs', code, h, hs, hvV, hf, hn => by
    rw [Stm.neat] at h
    obtain ⟨h0, h1, h2, h3, h4⟩ := h
    simp only [Stm.liveness, collectStm] at hn ⊢
    have g2 := grows_le (collectStm_spec s (collectSmps (Smp.livenesses args) code).2).grows
    have i1 := collectSmps_neat (n := n) (vs' := vs') hV args code h1 (fun x hx => hf x (by rw [Stm.free, mem_union]; exact .inl hx)) (by omega)
    have i2 := collectStm_neat (n := n) (vs' := y :: vs') hV s (collectSmps (Smp.livenesses args) code).2 h4 (fun x hx => by
        rcases List.mem_cons.mp hx with rfl | hx
        · simp
        · simp [hs x hx]) (fun x hx => by
        rcases List.mem_cons.mp hx with rfl | hx
        · exact h2
        · exact hvV x hx) (fun x hx => by
        by_cases hv : x = y
        · simp [hv]
        · rw [List.mem_cons]
          exact .inr (hf x (by rw [Stm.free, mem_union, mem_diff, List.mem_singleton]; exact .inr ⟨hx, hv⟩))) (by omega)
    exact ⟨⟨by rw [h0, collectSmps_length, livenesses_length], i1.1, h2, fun hy => h3 (hs y hy), i2.1⟩, i1.2.trans i2.2⟩
  | .seq e s, vs, vs', code, h, hs, hvV, hf, hn => by
    rw [Stm.neat] at h
    simp only [Stm.liveness, collectStm] at hn ⊢
    have g2 := grows_le (collectStm_spec s (collectSmp e.liveness code).2).grows
    have i1 := collectSmp_neat (n := n) (vs' := vs') hV e code h.1
      (fun x hx => hf x (by rw [Stm.free, mem_union, mem_union]; exact .inl (.inr hx))) (by omega)
    have i2 := collectStm_neat (n := n) (vs' := vs') hV s (collectSmp e.liveness code).2 h.2 hs hvV
      (fun x hx => hf x (by rw [Stm.free, mem_union]; exact .inr hx)) (by omega)
    exact ⟨⟨i1.1, i2.1⟩, i1.2.trans i2.2⟩
  | .ite e a b, vs, vs', code, h, hs, hvV, hf, hn => by
    rw [Stm.neat] at h
    simp only [Stm.liveness, collectStm] at hn ⊢
    have g2 := grows_le (collectStm_spec a (collectSmp e.liveness code).2).grows
    have g3 := grows_le (collectStm_spec b (collectStm a.liveness (collectSmp e.liveness code).2).2).grows
    have i1 := collectSmp_neat (n := n) (vs' := vs') hV e code h.1
      (fun x hx => hf x (by rw [Stm.free, mem_union, mem_union, mem_union]; exact .inl (.inl (.inr hx)))) (by omega)
    have i2 := collectStm_neat (n := n) (vs' := vs') hV a (collectSmp e.liveness code).2 h.2.1 hs hvV
      (fun x hx => hf x (by rw [Stm.free, mem_union, mem_union]; exact .inl (.inr hx))) (by omega)
    have i3 := collectStm_neat (n := n) (vs' := vs') hV b (collectStm a.liveness (collectSmp e.liveness code).2).2 h.2.2 hs hvV
      (fun x hx => hf x (by rw [Stm.free, mem_union]; exact .inr hx)) (by omega)
    exact ⟨⟨i1.1, i2.1, i3.1⟩, (i1.2.trans i2.2).trans i3.2⟩
theorem collectSmps_neat {n : Nat} (hV : VarsOk g V) : ∀ (es : List Smp) {vs vs' : List Spec.Lang.Sym} (code : List Lam), Smp.neats g V vs es →
    (∀ x ∈ Smp.frees [] es, x ∈ vs') → (collectSmps (Smp.livenesses es) code).2.length ≤ n →
    (∀ a ∈ (collectSmps (Smp.livenesses es) code).1, SmpOk g n vs' a) ∧ Added g n code (collectSmps (Smp.livenesses es) code).2
  | [], vs, vs', code, h, hf, hn => by
    simp only [Smp.livenesses, collectSmps]
    exact ⟨fun _ h => by simp at h, fun _ h => .inl h⟩
  | e :: es, vs, vs', code, h, hf, hn => by
    rw [Smp.neats] at h
    simp only [Smp.livenesses, collectSmps] at hn ⊢
    have g2 := grows_le (collectSmps_spec es (collectSmp e.liveness code).2).grows
    have i1 := collectSmp_neat (n := n) (vs' := vs') hV e code h.1 (fun x hx => hf x (mem_sfrees_cons.mpr (.inl hx))) (by omega)
    have i2 := collectSmps_neat (n := n) (vs' := vs') hV es (collectSmp e.liveness code).2 h.2
      (fun x hx => hf x (mem_sfrees_cons.mpr (.inr hx))) (by omega)
    refine ⟨fun a ha => ?_, i1.2.trans i2.2⟩
    rcases List.mem_cons.mp ha with rfl | ha
    · exact i1.1
    · exact i2.1 a ha
end

/-! ### the whole compiler -/

theorem file_ok {e : Core} {k k' : Nat} {file : List Lam} (hc : compile e k = some (file, k')) (hk : Below k e.syms)
    (hb : NoPrims e.binders) (hfull : e.full) (ht : e.tidy []) (ha : e.apart) (hw : e.writable)
    (hg : ∀ d ∈ globalsOf [] e [], d ∈ g.globals) (hv : VarsOk g (ownVars e k')) (htab : ∀ d ∈ g.globals, EntryOk g d) :
    FileOk g file := by
  simp only [compile, Option.bind_eq_bind, Option.bind_eq_some_iff] at hc
  obtain ⟨⟨e1, k1⟩, hp, hc⟩ := hc
  simp only [Option.some.injEq, Prod.mk.injEq] at hc
  obtain ⟨rfl, rfl⟩ := hc
  have hfit : Fits k [] e := ⟨hk, by intro n hn; simp at hn, hb, by intro x hx; simp at hx⟩
  obtain ⟨-, htidy⟩ := parse_tidy e (S := []) (fvs := []) (S2 := []) hp hfit hfull ht
    ⟨fun x _ hs => by simp at hs, fun x hx => by simp at hx, fun n hn => by simp at hn, fun n hn => by simp at hn⟩
  have hkk := parse_le e hp
  have hle := tailify_le (conv [] e1) .id k1 idLe
  have hneat := parse_neat (g := g) e [] hp hk (fun _ _ => Iff.rfl) hfull ha hw hg
  have hbound : Below k1 ([] ++ (conv [] e1).bound) := fun n hn => by
    rcases conv_bound e [] hp hfull _ hn with h1 | ⟨i, _, h2, h3⟩
    · have := hk n (binders_syms e _ h1)
      omega
    · cases h3
      exact h2
  have hV : ∀ x ∈ (conv [] e1).bound, x ∈ ownVars e (tailify (conv [] e1) .id k1).2 := fun x hx => by
    rcases conv_bound e [] hp hfull _ hx with h1 | ⟨i, _, h2, rfl⟩
    · simp [ownVars, h1]
    · simp only [ownVars, List.mem_append, List.mem_map, List.mem_range]
      exact .inr ⟨i, by omega, rfl⟩
  have hst : (tailify (conv [] e1) .id k1).1.neat g (ownVars e (tailify (conv [] e1) .id k1).2) [] :=
    tailify_neat (K := (tailify (conv [] e1) .id k1).2) (fun i hi => by
        simp only [ownVars, List.mem_append, List.mem_map, List.mem_range]
        exact .inr ⟨i, hi, rfl⟩) _ htidy hneat (fun _ h => h) ⟨hbound, fun x _ => by simp, lets_bound _⟩ hV idLe (Nat.le_refl _)
      fun ra k2 vs1 _ _ _ hra _ => hra
  generalize (tailify (conv [] e1) .id k1).1 = st at *
  have key := collectStm_neat (n := (collect st.liveness).length) hv st (vs' := []) [] hst (fun _ h => h) (fun x hx => by simp at hx)
    (stm_neat_free st hst) (by simp [collect])
  refine ⟨by simp [collect], fun l hl => ?_, htab⟩
  have hl' : l ∈ (collectStm st.liveness []).2 ++ [lambdaFinal [] (collectStm st.liveness []).1] := hl
  rcases List.mem_append.mp hl' with h1 | h1
  · rcases key.2 l h1 with h2 | h2
    · simp at h2
    · exact h2
  · rw [List.mem_singleton.mp h1]
    exact lambdaFinal_neat hv .nil (fun x hx => by simp at hx) key.1

end Cora.Compile
