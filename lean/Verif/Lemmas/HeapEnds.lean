import Verif.Lemmas.HeapSim
/-
Runs with the heap exist: there is always room for another object, and no assertion fails.
-/
open Spec.Lang Spec.Compiled
namespace Cora.Compile
open GC
variable {W : Type} [Layout]

/-! ### room -/

/-- no slot is taken, no block gets slots -/
def NoMore (s s' : St) : Prop := (∀ b, s.nslots b = 0 → s'.nslots b = 0) ∧ ∀ x, (s.obj x).used = false → (s'.obj x).used = false

omit [Layout] in
theorem NoMore.refl (s : St) : NoMore s s := ⟨fun _ h => h, fun _ h => h⟩

omit [Layout] in
theorem NoMore.trans {s1 s2 s3 : St} (h1 : NoMore s1 s2) (h2 : NoMore s2 s3) : NoMore s1 s3 :=
  ⟨fun b h => h2.1 b (h1.1 b h), fun x h => h2.2 x (h1.2 x h)⟩

omit [Layout] in
theorem noMore_version (s : St) (x : SlotId) (v : Version) : NoMore s (s.setVersion x v) := by
  refine ⟨fun _ h => h, fun y h => ?_⟩
  simp only [St.setVersion, St.setObj, upd]
  split
  · rename_i e; subst e; exact h
  · exact h

omit [Layout] in
theorem noMore_mark {s s' : St} {x : SlotId} {minv : Option Version} (h : markObject s x minv = some s') : NoMore s s' := by
  have fin : ∀ r : Version × Bool, (if r.2 = true then
      some (({ s.setVersion x r.1 with gray := (s.setVersion x r.1).gray ++ [x] } : St).setTouch x.1) else some s) = some s' → NoMore s s' := by
    intro r h
    split at h
    · cases h; exact noMore_version ..
    · cases h; exact .refl _
  unfold markObject at h
  split at h
  · simp only at h
    split at h
    · split at h
      · split at h <;> cases h
        · exact noMore_version ..
        · exact .refl _
      · cases h; exact .refl _
    · simp only [Option.bind_eq_bind] at h
      split at h
      · simp only [Option.bind_eq_some_iff] at h
        obtain ⟨r, _, h⟩ := h
        exact fin _ h
      · simp only [Option.bind_some] at h
        exact fin _ h
  · simp at h

theorem noMore_gcMark {s s' : St} {x : SlotId} {minv : Option Version} (h : gcMark s x minv = some s') : NoMore s s' := by
  unfold gcMark at h
  split at h
  · exact noMore_mark h
  · cases h; exact .refl _

theorem noMore_all {minv : Option Version} : ∀ {l : List (Option SlotId)} {s s' : St}, markAll s minv l = some s' → NoMore s s'
  | [], s, s', h => by cases h; exact .refl _
  | some x :: r, s, s', h => by
    simp only [markAll, Option.bind_eq_bind, Option.bind_eq_some_iff] at h
    obtain ⟨s1, h1, h2⟩ := h
    exact (noMore_gcMark h1).trans (noMore_all h2)
  | none :: r, s, s', h => noMore_all (l := r) h

theorem noMore_rset : ∀ {l kept : List SlotId} {s s' : St}, gcRSetLoop s kept l = some s' → NoMore s s'
  | [], kept, s, s', h => by cases h; exact .refl _
  | p :: r, kept, s, s', h => by
    unfold gcRSetLoop at h
    split at h
    · exact noMore_rset h
    · simp only [Option.bind_eq_bind, Option.bind_eq_some_iff] at h
      obtain ⟨s1, h1, h2⟩ := h
      exact (noMore_all h1).trans (noMore_rset h2)

theorem noMore_root {s s' : St} {roots : List (Option SlotId)} (h : gcMarkRoot s roots = some s') : NoMore s s' := by
  simp only [gcMarkRoot, Option.bind_eq_bind, Option.bind_eq_some_iff] at h
  obtain ⟨s1, h1, s2, h2, h3⟩ := h
  cases h3
  have h4 := (show NoMore s { s with gray := [] } from .refl _).trans ((noMore_all h1).trans (noMore_rset h2))
  exact h4

theorem noMore_flip (s : St) : NoMore s (gcFlip s) := by
  constructor
  · intro b h
    simp only [gcFlip]
    split
    · rfl
    · exact h
  · intro x h
    simp only [gcFlip]
    split
    · rfl
    · exact h

theorem noMore_run {s s' : St} (h : gcRunIncremental1 s = some s') : NoMore s s' := by
  unfold gcRunIncremental1 at h
  split at h
  · split at h <;> cases h
    · exact .refl _
    · exact noMore_flip s
  · simp only at h
    split at h
    · simp only [Option.bind_eq_bind, Option.bind_eq_some_iff] at h
      obtain ⟨s1, h1, h2⟩ := h
      cases h2
      exact (noMore_all h1).trans (noMore_version ..)
    · simp at h

theorem noMore_store {s s' : St} {a : SlotId} {i : Nat} {v : Option SlotId} (h : storeField s a i v = some s') : NoMore s s' := by
  simp only [storeField, barrierIncr, Option.bind_eq_bind, Option.bind_eq_some_iff] at h
  obtain ⟨s2, ⟨s1, h1, h2⟩, h3⟩ := h
  have m1 : NoMore s s1 := by
    unfold markOld at h1
    split at h1
    · split at h1
      · exact noMore_gcMark h1
      · cases h1; exact .refl _
    · cases h1; exact .refl _
  cases h2
  have m2 : NoMore s1 (s1.setObj a { s1.obj a with kids := (s1.obj a).kids.set i v }) := by
    refine ⟨fun _ h => h, fun y h => ?_⟩
    simp only [St.setObj, upd]
    split
    · rename_i e; subst e; exact h
    · exact h
  have add : ∀ t : St, NoMore t (addRSet t a) := by
    intro t
    unfold addRSet
    split <;> exact .refl _
  refine m1.trans (m2.trans ?_)
  unfold barrierGen at h3
  split at h3
  · cases h3; exact .refl _
  · split at h3
    · cases h3; exact .refl _
    · split at h3
      · cases h3; exact add _
      · cases h3; exact add _
      · split at h3
        · cases h3; exact .refl _
        · exact (add _).trans (noMore_gcMark h3)

omit [Layout] in
theorem noMore_sweep (s : St) (x : SlotId) : NoMore s (sweepSlot s x) := by
  refine ⟨fun _ h => h, fun y h => ?_⟩
  simp only [sweepSlot, St.setObj, upd]
  split
  · rfl
  · exact h

/-- all slots in use are among finitely many -/
def Few (s : St) : Prop := ∃ n, (∀ b, n ≤ b → s.nslots b = 0) ∧ ∀ x : SlotId, n ≤ x.1 ∨ n ≤ x.2 → (s.obj x).used = false

omit [Layout] in
theorem NoMore.few {s s' : St} (h : NoMore s s') (hf : Few s) : Few s' := by
  obtain ⟨n, h1, h2⟩ := hf
  exact ⟨n, fun b hb => h.1 b (h1 b hb), fun x hx => h.2 x (h2 x hx)⟩

/-- taking one slot -/
theorem few_take {s s' : St} {y : SlotId} (hf : Few s) (h1 : ∀ b, s.nslots b = 0 → s'.nslots b = 0)
    (h2 : ∀ x, x ≠ y → (s.obj x).used = false → (s'.obj x).used = false) : Few s' := by
  obtain ⟨n, a1, a2⟩ := hf
  refine ⟨n + y.1 + y.2 + 1, fun b hb => h1 b (a1 b (by omega)), fun x hx => h2 x ?_ (a2 x (by omega))⟩
  rintro rfl
  omega

theorem few_alloc {s s' : St} {b : Nat} {kids : List (Option SlotId)} {o : Option SlotId} (hf : Few s) (h : allocStep s b kids = (s', o)) : Few s' := by
  unfold allocStep at h
  simp only at h
  split at h
  · cases h
    refine few_take (y := (b, s.curr b)) hf ?_ ?_
    · intro c hc
      split <;> exact hc
    · intro x hx hu
      split <;> (simp only [St.setObj, upd, if_neg hx]; exact hu)
  · cases h; exact hf
  · cases h; exact hf

theorem few_step {c c' : Config} {f : Freed} (hs : Step c f c') (hf : Few c.st) : Few c'.st := by
  cases hs with
  | forget => exact hf
  | load => exact hf
  | store _ _ _ _ _ _ _ _ _ h => exact (noMore_store h).few hf
  | globalSet _ _ _ _ _ _ h => exact (noMore_gcMark h).few hf
  | getBlock s s' held b n h1 h2 h3 h =>
    unfold getBlock at h
    split at h
    · cases h
      obtain ⟨m, a1, a2⟩ := hf
      refine ⟨m + b + 1, fun c hc => ?_, fun x hx => a2 x (by omega)⟩
      simp only [upd]
      rw [if_neg (by omega)]
      exact a1 c (by omega)
    · simp at h
  | allocTake s held b kids s' x _ _ _ h => exact few_alloc hf h
  | allocSkip s held b s' _ _ h => exact few_alloc hf h
  | pop => exact hf
  | allocLarge s held x merged kids h1 h2 h3 h4 =>
    refine few_take (y := x) hf (fun _ h => h) fun z hz hu => ?_
    simp only [allocLarge, St.setObj, upd, if_neg hz]
    split
    · rfl
    · exact hu
  | start _ _ _ _ _ _ _ h => exact (noMore_root h).few hf
  | run _ _ _ _ h => exact (noMore_run h).few hf
  | sweepSmall _ _ x => exact (noMore_sweep _ x).few hf
  | sweepLarge _ _ x => exact (noMore_sweep _ x).few hf
  | flip => exact (noMore_flip _).few hf

theorem run_few {c : Config} (h : Run c) : Few c.st := by
  induction h with
  | init => exact ⟨0, fun _ _ => rfl, fun _ _ => rfl⟩
  | step _ hs ih => exact few_step hs ih

theorem alloc_take {s : St} {b : Nat} {kids : List (Option SlotId)} (h : (s.obj (b, s.curr b)).used = false) :
    ∃ s2 x, allocStep s b kids = (s2, some x) := by
  simp only [allocStep, inuse, h, if_true]
  exact ⟨_, _, rfl⟩

/-- there is always room for another object -/
theorem new_exists {hp : Heap W} {held : List SlotId} (h : Run ⟨hp.gc, held⟩) (c : Cell) : ∃ hp' x, NewObj hp c hp' x := by
  classical
  obtain ⟨n, h1, h2⟩ := run_few h
  simp only at h1 h2
  by_cases hl : Layout.large n = true
  · have hu := h2 (n, n) (.inl (Nat.le_refl n))
    exact ⟨_, (n, n), .large (merged := []) (cell2 := upd hp.cell (n, n) c) (.none _ _) hl (by simp [inuse, hu]) (by simp)
      (fun y hy _ => by simp [upd, hy]) (by simp [upd])⟩
  · simp only [Bool.not_eq_true] at hl
    obtain ⟨G, hG⟩ := run_inv h
    have h0 := h1 n (Nat.le_refl n)
    have hb := (C31_no_assertion_fails h).2.2.2.2 n 1 hl h0
    obtain ⟨s1, hs1⟩ := Option.isSome_iff_exists.mp hb
    have hwork : Work hp.gc hp.cell s1 hp.cell := .more (.none _ _) (.getBlock n 1 hl h0 (by omega) hs1) (fun _ _ => rfl)
    have hu := h2 (n, 0) (.inl (Nat.le_refl n))
    obtain ⟨e1, e2, e3, e4⟩ : s1.listed n = true ∧ s1.curr n = 0 ∧ s1.nslots n = 1 ∧ s1.obj = hp.gc.obj := by
      unfold getBlock at hs1
      split at hs1
      · cases hs1; simp [upd]
      · simp at hs1
    obtain ⟨s2, x, ha⟩ := alloc_take (s := s1) (b := n) (kids := c.kids) (by rw [e2, e4]; exact hu)
    exact ⟨_, _, .small hwork e1 (by omega) ha⟩

/-! ### operands -/

/-- the operand is no constant pair -/
def CSmp.plain : CSmp → Prop
  | .const (.cons _ _) => False
  | _ => True

/-- no operand is -/
def CStm.plain : CStm → Prop
  | .ret e => e.plain
  | .tail f args => f.plain ∧ ∀ a ∈ args, a.plain
  | .call f args _ _ => f.plain ∧ ∀ a ∈ args, a.plain
  | .bind _ e k => e.plain ∧ k.plain
  | .prim _ _ args k => (∀ a ∈ args, a.plain) ∧ k.plain
  | .seq e k => e.plain ∧ k.plain
  | .ite e a b => e.plain ∧ a.plain ∧ b.plain

section
variable {unit : Nat} {r0 : Word} {v0 : MVal} {henv : HEnv} {env : CEnv MCode}

theorem eval_exists {hp : Heap W} {held : List SlotId} (hcol : HeapOk hp held) (he : EnvOwns hp.cell held henv env) (h0 : Owns hp.cell held r0 v0)
    {w0 : CWorld MCode W} (hw : ShowsWorld hp w0) {e : CSmp} (hpl : e.plain) {v : MVal} (hv : evalC unit (capturedOf v0) env w0 e = some v) :
    ∃ w hp', HEval unit r0 henv hp e w hp' := by
  cases e with
  | const d =>
    cases d with
    | str s =>
      obtain ⟨hp', x, hn⟩ := new_exists hcol.run (.str s)
      exact ⟨_, _, .str hn⟩
    | cons => exact hpl.elim
    | _ => exact ⟨_, _, .const rfl⟩
  | global x =>
    simp only [evalC] at hv
    rcases hw.2 x with ⟨_, h2⟩ | ⟨u, v', h1, h2, h3⟩
    · rw [h2] at hv; simp at hv
    · exact ⟨_, _, .global h1⟩
  | ref r =>
    obtain ⟨w, h1, _⟩ := get_sim hcol he h0 hv
    exact ⟨_, _, .ref h1⟩
  | closure label nargs nframe frees =>
    simp only [evalC, Option.map_eq_some_iff] at hv
    obtain ⟨vs, hvs, _⟩ := hv
    obtain ⟨ws, h1, _⟩ := refs_sim hcol he h0 hvs
    obtain ⟨hp', x, hn⟩ := new_exists hcol.run (.fn (.code unit label) nframe nargs ws)
    exact ⟨_, _, .closure h1 hn⟩

theorem evals_exists : ∀ {es : List CSmp} {hp : Heap W} {held : List SlotId}, HeapOk hp held → EnvOwns hp.cell held henv env → Owns hp.cell held r0 v0 →
    ∀ {w0 : CWorld MCode W}, ShowsWorld hp w0 → (∀ e ∈ es, e.plain) → ∀ {vs : List MVal}, evalCs unit (capturedOf v0) env w0 es = some vs →
    ∃ ws hp', HEvals unit r0 henv hp es ws hp'
  | [], hp, held, _, _, _, _, _, _, _, _ => ⟨_, _, .nil hp⟩
  | e :: es, hp, held, hcol, he, h0, w0, hw, hpl, vs, hvs => by
    rw [evalCs] at hvs
    split at hvs
    · rename_i v us b1 b2
      obtain ⟨w, hp1, h1⟩ := eval_exists hcol he h0 hw (hpl e (by simp)) b1
      obtain ⟨held1, a1, a2, a3⟩ := eval_sim hcol he h0 hw b1 h1
      obtain ⟨ws, hp2, h2⟩ := evals_exists a1.coll (a1.env he) (a1.has h0) a3 (fun e' h' => hpl e' (by simp [h'])) b2
      exact ⟨_, _, .cons h1 h2⟩
    · simp at hvs

end

/-! ### primitives and statements -/

section
variable {HO : HOutside W} {O : Outside W}

theorem setGlobal_exists {hp : Heap W} {held : List SlotId} (hcol : HeapOk hp held) (x : Spec.Lang.Sym) (w : Word) : ∃ hp', hp.setGlobal x w = some hp' := by
  unfold Heap.setGlobal
  split
  · rename_i p _ _
    obtain ⟨gc, h⟩ := Option.isSome_iff_exists.mp ((C31_no_assertion_fails hcol.run).1 p)
    exact ⟨_, by rw [h]; rfl⟩
  · exact ⟨_, rfl⟩

theorem prim_exists (hT : Answers HO O) {hp : Heap W} {held : List SlotId} (hcol : HeapOk hp held) {p : String} {ws : List Word} {vs : List MVal}
    (hws : OwnsAll hp.cell held ws vs) {w0 w1 : CWorld MCode W} (hw : ShowsWorld hp w0) {v : MVal} (hv : cprim O p vs w0 = some (v, w1)) :
    ∃ w hp', HPrim HO p ws hp w hp' := by
  classical
  obtain ⟨r, hr, hf⟩ := prim_fits hcol hws hv
  cases hf with
  | now => exact ⟨_, _, .now hr⟩
  | new =>
    obtain ⟨hp', x, hn⟩ := new_exists hcol.run _
    exact ⟨_, _, .new hr hn⟩
  | @set x u =>
    obtain ⟨hp', hn⟩ := setGlobal_exists hcol x u
    exact ⟨_, _, .set hr hn⟩
  | @eq a b x y h1 h2 h3 h4 h5 =>
    by_cases ha : ∃ u, Denotes hp.cell a u
    · obtain ⟨u, hu⟩ := ha
      by_cases hb : ∃ v, Denotes hp.cell b v
      · obtain ⟨v, hv⟩ := hb
        exact ⟨_, _, .eq hr hu hv⟩
      · exact ⟨_, _, .eqLeft hr hu fun v hv => hb ⟨v, hv⟩⟩
    · by_cases hb : ∃ v, Denotes hp.cell b v
      · obtain ⟨v, hv⟩ := hb
        exact ⟨_, _, .eqRight hr (fun u hu => ha ⟨u, hu⟩) hv⟩
      · have none_of : ∀ {a : Word} {x : MVal}, Shows hp.cell a x → (¬ ∃ u, Denotes hp.cell a u) → x.datum = none := by
          intro a x h1 h2
          cases e : x.datum with
          | none => rfl
          | some d => exact absurd ⟨d, (shows_denotes h1).mpr e⟩ h2
        simp only [cprim, none_of h1 ha, none_of h2 hb] at h3
        subst h4 h5
        obtain ⟨w, hp', ho⟩ := hT.prim _ ws hp held _ w0 v w1 hcol hws.shows hws.holds hw h3
        exact ⟨_, _, .eqOut hr (fun u hu => ha ⟨u, hu⟩) (fun v hv => hb ⟨v, hv⟩) ho⟩
  | out h =>
    obtain ⟨w, hp', ho⟩ := hT.prim _ ws hp held vs w0 v w1 hcol hws.shows hws.holds hw h
    exact ⟨_, _, .out hr ho⟩

theorem exec_exists (hI : Implements HO O) (hT : Answers HO O) {u : Nat} : ∀ {k : CStm} {henv : HEnv} {h : HMach W} {held : List SlotId} {env : CEnv MCode}
    {v0 : MVal} {w0 w1 : CWorld MCode W} {e : Exit}, k.plain → HeapOk h.heap held → EnvOwns h.heap.cell held henv env →
    Owns h.heap.cell held (h.mem h.ctx.bp) v0 → ShowsWorld h.heap w0 → outcome O u (capturedOf v0) k env w0 = some (w1, e) →
    ∃ h' a, HExec HO u k henv h h' a := by
  intro k
  induction k with
  | ret e =>
    intro henv h held env v0 w0 w1 x hpl hcol he h0 hw ho
    simp only [outcome, Option.map_eq_some_iff] at ho
    obtain ⟨v, hv, _⟩ := ho
    obtain ⟨w, hp', h1⟩ := eval_exists hcol he h0 hw hpl hv
    exact ⟨_, _, .ret h1⟩
  | tail f args =>
    intro henv h held env v0 w0 w1 x hpl hcol he h0 hw ho
    simp only [outcome] at ho
    split at ho
    · rename_i g vs hg hvs
      obtain ⟨w, hp1, h1⟩ := eval_exists hcol he h0 hw hpl.1 hg
      obtain ⟨held1, a1, a2, a3⟩ := eval_sim hcol he h0 hw hg h1
      obtain ⟨ws, hp2, h2⟩ := evals_exists a1.coll (a1.env he) (a1.has h0) a3 hpl.2 hvs
      exact ⟨_, _, .tail h1 h2⟩
    · simp at ho
  | call f args label live =>
    intro henv h held env v0 w0 w1 x hpl hcol he h0 hw ho
    simp only [outcome] at ho
    split at ho
    · rename_i us hus
      split at ho
      · rename_i g vs hg hvs
        obtain ⟨us', c1, _⟩ := live_sim he hus
        obtain ⟨w, hp1, h1⟩ := eval_exists hcol he h0 hw hpl.1 hg
        obtain ⟨held1, a1, a2, a3⟩ := eval_sim hcol he h0 hw hg h1
        obtain ⟨ws, hp2, h2⟩ := evals_exists a1.coll (a1.env he) (a1.has h0) a3 hpl.2 hvs
        exact ⟨_, _, .call c1 h1 h2⟩
      · simp at ho
    · simp at ho
  | bind y e k ih =>
    intro henv h held env v0 w0 w1 x hpl hcol he h0 hw ho
    simp only [outcome] at ho
    split at ho
    · rename_i v hv
      obtain ⟨w, hp1, h1⟩ := eval_exists hcol he h0 hw hpl.1 hv
      obtain ⟨held1, a1, a2, a3⟩ := eval_sim hcol he h0 hw hv h1
      obtain ⟨h', a, h2⟩ := ih (h := { h with heap := hp1 }) hpl.2 a1.coll ((a1.env he).cons y a2) (a1.has h0) a3 ho
      exact ⟨_, _, .bind h1 h2⟩
    · simp at ho
  | prim y p args k ih =>
    intro henv h held env v0 w0 w1 x hpl hcol he h0 hw ho
    simp only [outcome] at ho
    split at ho
    · rename_i vs hvs
      split at ho
      · rename_i v w2 hv
        obtain ⟨ws, hp1, h1⟩ := evals_exists hcol he h0 hw hpl.1 hvs
        obtain ⟨held1, a1, a2, a3⟩ := evals_sim h1 hcol he h0 hw hvs
        obtain ⟨w, hp2, h2⟩ := prim_exists hT a1.coll a2 a3 hv
        obtain ⟨held2, c1, c2, c3⟩ := prim_sim hI a1.coll a2 a3 hv h2
        have ac := a1.trans c1
        obtain ⟨h', a, h3⟩ := ih (h := { h with heap := hp2 }) hpl.2 ac.coll ((ac.env he).cons y c2) (ac.has h0) c3 ho
        exact ⟨_, _, .prim h1 h2 h3⟩
      · simp at ho
    · simp at ho
  | seq e k ih =>
    intro henv h held env v0 w0 w1 x hpl hcol he h0 hw ho
    simp only [outcome] at ho
    split at ho
    · rename_i v hv
      obtain ⟨w, hp1, h1⟩ := eval_exists hcol he h0 hw hpl.1 hv
      obtain ⟨held1, a1, a2, a3⟩ := eval_sim hcol he h0 hw hv h1
      obtain ⟨h', a, h2⟩ := ih (h := { h with heap := hp1 }) hpl.2 a1.coll (a1.env he) (a1.has h0) a3 ho
      exact ⟨_, _, .seq h1 h2⟩
    · simp at ho
  | ite e a b ih1 ih2 =>
    intro henv h held env v0 w0 w1 x hpl hcol he h0 hw ho
    simp only [outcome] at ho
    split at ho
    · rename_i v hv
      obtain ⟨w, hp1, h1⟩ := eval_exists hcol he h0 hw hpl.1 hv
      obtain ⟨held1, a1, a2, a3⟩ := eval_sim hcol he h0 hw hv h1
      by_cases hb : w = .bool true
      · subst hb
        rw [shows_true a2.1, if_pos rfl] at ho
        obtain ⟨h', a, h2⟩ := ih1 (h := { h with heap := hp1 }) hpl.2.1 a1.coll (a1.env he) (a1.has h0) a3 ho
        exact ⟨_, _, .iteTrue h1 h2⟩
      · rw [shows_false a2.1 hb, if_neg (by simp)] at ho
        obtain ⟨h', a, h2⟩ := ih2 (h := { h with heap := hp1 }) hpl.2.2 a1.coll (a1.env he) (a1.has h0) a3 ho
        exact ⟨_, _, .iteFalse h1 hb h2⟩
    · simp at ho

end

/-! ### steps -/

section
variable {units : List (List Lam)} {P : Before} {h : HMach W} {t : SMach W} {held : List SlotId} {HO : HOutside W} {O : Outside W}

theorem same_valid (hs : HSame h t) (p : Nat) : h.valid p = t.valid p := by
  unfold HMach.valid SMach.valid
  rw [hs.2.2.2.2.2]

theorem frame_exists (hs : HSame h t) (ht : t.frameOk = true) : h.frameOk = true := by
  unfold HMach.frameOk
  unfold SMach.frameOk at ht
  simp only [same_valid hs, ← hs.1]
  exact ht

theorem ret_exists (hs : HSame h t) (w : Word) {v : MVal} {t1 : SMach W} (ht : t.ret v = some t1) : ∃ h1, h.ret w = some h1 := by
  obtain ⟨s1, s2, s3, s4, s5, s6⟩ := hs
  unfold HMach.ret
  unfold SMach.ret at ht
  rw [s2] at ht
  cases hf : h.frames with
  | nil => rw [hf] at ht; simp at ht
  | cons f fs =>
    rw [hf] at ht
    simp only at ht ⊢
    rw [s3, s4] at ht
    split at ht
    · rename_i hc
      rw [if_pos hc]
      unfold SMach.dropSegment at ht
      unfold HMach.dropSegment
      simp only [s5] at ht
      cases hd : h.data with
      | nil => simp [hd] at ht
      | cons top r =>
        cases r with
        | nil => simp [hd] at ht
        | cons b r =>
          simp only [hd] at ht ⊢
          split at ht
          · rename_i c1
            rw [if_pos c1]
            split at ht
            · rename_i c2
              rw [if_pos c2]
              exact ⟨_, rfl⟩
            · simp at ht
          · simp at ht
    · rename_i hc
      rw [if_neg hc]
      exact ⟨_, rfl⟩

theorem enter_exists (hs : HSame h t) {malloc : List Nat → Nat} {f : MVal} {vs : List MVal} (w : Word) {ws : List Word} (hl : ws.length = vs.length)
    {t1 : SMach W} (ht : t.enter malloc f vs = some t1) : ∃ h1, h.enter malloc (fnOf f) (nframeOf f) w ws = some h1 := by
  have hs' := hs
  obtain ⟨s1, s2, s3, s4, s5, s6⟩ := hs
  simp only [HMach.enter, HMach.alloc, Option.bind_eq_bind]
  simp only [SMach.enter, SMach.alloc, Option.bind_eq_bind] at ht
  split at ht
  · simp at ht
  · rename_i h0
    rw [if_neg h0]
    rw [s1, s4] at ht
    split at ht
    · rename_i hfit
      rw [if_pos hfit]
      simp only [Option.bind_some, SMach.store, HMach.store] at ht ⊢
      split at ht
      · rename_i hv
        rw [if_pos (by
          simp only [List.length_cons] at hv ⊢
          rw [hl]
          simpa only [SMach.valid, HMach.valid, s6] using hv)]
        exact ⟨_, rfl⟩
      · simp at ht
    · rename_i hfit
      rw [if_neg hfit]
      split at ht
      · rename_i hsm
        rw [if_pos hsm]
        simp only [Option.bind_some, SMach.store, HMach.store, SMach.newSegment, HMach.newSegment, s6] at ht ⊢
        split at ht
        · rename_i hv
          rw [if_pos (by
            simp only [List.length_cons] at hv ⊢
            rw [hl]
            simpa only [SMach.valid, HMach.valid] using hv)]
          exact ⟨_, rfl⟩
        · simp at ht
      · simp at ht

theorem block_exists (hI : Implements HO O) (hT : Answers HO O) {strict : Prop} {s : Mach W} (ha : Active strict units P.B s t)
    (hh : HActive units P h t held) {u l : Nat} (hfn : t.ctx.fn = .code u l) {code : List Lam} {lam : Lam} (hu : units[u]? = some code)
    (hl : code[l]? = some lam) (hpl : ∀ b ∈ lam.pieces, b.plain) {tv : Mach W} {m : MAct} (ht : lam.block O u t.view = some (tv, m)) :
    ∃ h1 a, HBlock HO u lam h h1 a := by
  obtain ⟨body, env, henv, hbody, he, hpair, ht1, hx, _⟩ := block_vars O HO ha hh hfn hu hl
  obtain ⟨hi, hr, hres⟩ := hh
  have s1 := hi.same.1
  obtain ⟨hp, hin, ⟨size, k, a1, a2, a3, a4, a5, a6⟩, hsres⟩ := ha
  have h0 := hr size k (by rw [← s1]; exact a3) (by rw [← s1]; exact a5) 0 a5.le.1
  rw [Nat.add_zero] at h0
  rw [ht1, execC_outcome, Option.map_eq_some_iff] at ht
  obtain ⟨⟨w', e⟩, ho, _⟩ := ht
  have hcap : capturedOf (t.view.stack t.view.ctx.bp) = capturedOf (t.mem h.ctx.bp) := by simp only [SMach.view, s1]
  rw [hcap] at ho
  obtain ⟨h1, a, h2⟩ := exec_exists hI hT (hpl body hbody) hi.ok hpair h0 hi.world ho
  exact ⟨h1, a, (hx h1 a).mpr h2⟩

theorem curry_exists {strict : Prop} {s : Mach W} (ha : Active strict units P.B s t) (hh : HActive units P h t held)
    (hfn : t.ctx.fn = .curry) : ∃ h1, hcurryBlock h = some h1 := by
  obtain ⟨hi, hr, _⟩ := hh
  have s1 := hi.same.1
  obtain ⟨hp, hin, ⟨size, k, a1, a2, a3, a4, a5, a6⟩, hres⟩ := ha
  have h0 := hr size k (by rw [← s1]; exact a3) (by rw [← s1]; exact a5) 0 a5.le.1
  rw [Nat.add_zero] at h0
  rw [hfn] at a5
  have hmv : t.mem h.ctx.bp = t.mem t.ctx.bp := by rw [s1]
  generalize hv : t.mem t.ctx.bp = v at a5
  rw [hmv, hv] at h0
  cases a5 with
  | @curry f got n _ b1 b2 =>
    obtain ⟨h01, h02⟩ := h0
    generalize hw0 : h.mem h.ctx.bp = w0 at h01 h02
    cases h01 with
    | @pap x _ n' _ w ws c1 c2 c3 c4 c5 =>
      obtain ⟨data, hdata⟩ := shows_fn c3 c1
      have hc0 : cellOf h.heap.cell (.ptr x) = some (.fn .curry (nframeOf f) (n' - got.length) (w :: ws)) := by simp only [cellOf, c2]
      exact ⟨_, by simp only [hcurryBlock, hw0, hc0, hdata]; rfl⟩

end

/-! ### runs -/

section
variable {units : List (List Lam)} {P : Before} {O : Outside W} {HO : HOutside W} {malloc : List Nat → Nat}

/-- the state of a run -/
def HRel (units : List (List Lam)) (P : Before) (s : Mach W) (t : SMach W) (h : HMach W) (held : List SlotId) : Option HAct → Option MAct → Prop
  | none, none => HState units P s t h held
  | some ha, some ma => PAct True units P.B ma s t ∧ HPAct units P h t held ha ma
  | _, _ => False

theorem heap_exists (hB : P.B.Ok) (hU : UnitsOk units) (hO : KeepsSane O) (hm : Fresh malloc) (hI : Implements HO O) (hT : Answers HO O)
    (hpl : ∀ code ∈ units, ∀ l ∈ code, ∀ b ∈ l.pieces, b.plain) : ∀ (n : Nat) (s s' : Mach W) (t : SMach W) (h : HMach W) (held : List SlotId)
    (act : Option HAct) (a : Option MAct), HRel units P s t h held act a → goX false O units n s a = some s' →
    ∃ h', HGo malloc HO units h act h' := by
  intro n
  induction n with
  | zero => intro s s' t h held act a _ hx; simp [goX] at hx
  | succ n ih =>
    intro s s' t h held act a hs hx
    cases a with
    | none =>
      cases act with
      | some _ => exact hs.elim
      | none =>
        by_cases hfn : h.ctx.fn = .exit
        · exact ⟨h, .exit hfn⟩
        obtain ⟨hf, hact, hh⟩ := state_active hB hs hfn
        have hok := frame_exists hh.1.same (active_frameOk hB hact)
        cases hfn' : h.ctx.fn with
        | exit => exact absurd hfn' hfn
        | code u l =>
          rw [hfn'] at hf
          obtain ⟨code, lam, q1, q2, q3, q4⟩ := block_sim' hB hU hO hact hf
          simp only [goX, q1, q2, q3] at hx
          rcases q4 with ⟨q5, _⟩ | ⟨s1, tv, m, q5, q6, q7⟩
          · rw [q5] at hx; simp at hx
          · rw [q5] at hx
            obtain ⟨h1, a, hb⟩ := block_exists hI hT hact hh hf q2 q3 (hpl code (List.mem_of_getElem? q2) lam (List.mem_of_getElem? q3)) q6
            obtain ⟨held', q8⟩ := block_heap hB hU hO hI hact hh hf q2 q3 hb q6
            obtain ⟨h', hg⟩ := ih s1 s' _ h1 held' (some a) (some m) ⟨q7, q8⟩ hx
            exact ⟨h', .code hfn' hok q2 q3 hb hg⟩
        | prim p =>
          rw [hfn'] at hf
          obtain ⟨w1, w2⟩ := active_world hact
          obtain ⟨q1, k, q2, q3, q4⟩ := active_prim hact hf
          simp only [goX, q1, q2] at hx
          split at hx
          · rename_i v w' hv
            obtain ⟨q5, q6⟩ := cprim_sane hO (by rw [q3]; exact q4) w2 hv
            rw [q3] at hv
            obtain ⟨hi, hr, _⟩ := hh
            have hargs : OwnsAll h.heap.cell held (readW h.mem (h.ctx.bp + 1) k) (readAt t.mem (t.ctx.bp + 1) k) := by
              obtain ⟨_, _, ⟨size, k', a1, a2, a3, a4, a5, a6⟩, _⟩ := hact
              have hregs := hr size k' (by rw [← hi.same.1]; exact a3) (by rw [← hi.same.1]; exact a5)
              rw [hf] at a5
              cases a5 with
              | prim b1 b2 =>
                rw [q2] at b1; cases b1
                rw [hi.same.1]
                refine regs_owns fun i hi => ?_
                rw [show h.ctx.bp + 1 + i = h.ctx.bp + (i + 1) by omega]
                exact hregs (i + 1) (by omega)
            obtain ⟨w, hp, hpr⟩ := prim_exists hT hi.ok hargs hi.world (by rw [w1]; exact hv)
            obtain ⟨held', r1, r2, r3⟩ := prim_sim hI hi.ok hargs hi.world (by rw [w1]; exact hv) hpr
            obtain ⟨h', hg⟩ := ih _ s' _ { h with heap := hp } held' (some (.ret w)) (some (.ret v))
              ⟨⟨q5, _, _, pend_world hact.1 q6⟩, hi.onward r1 r3, r2⟩ hx
            exact ⟨h', .prim hfn' hok q2 hpr hg⟩
          · simp at hx
        | native id k =>
          rw [hfn'] at hf
          obtain ⟨w1, w2⟩ := active_world hact
          obtain ⟨q1, q3, q4⟩ := active_native hact hf
          simp only [goX, q1] at hx
          split at hx
          · rename_i v w' hv
            obtain ⟨q5, q6⟩ := hO.2 units id _ _ _ _ (by rw [q3]; exact q4) w2 hv
            rw [q3] at hv
            obtain ⟨hi, hr, _⟩ := hh
            have hargs : OwnsAll h.heap.cell held (readW h.mem (h.ctx.bp + 1) k) (readAt t.mem (t.ctx.bp + 1) k) := by
              obtain ⟨_, _, ⟨size, k', a1, a2, a3, a4, a5, a6⟩, _⟩ := hact
              have hregs := hr size k' (by rw [← hi.same.1]; exact a3) (by rw [← hi.same.1]; exact a5)
              rw [hf] at a5
              cases a5 with
              | native b1 =>
                rw [hi.same.1]
                refine regs_owns fun i hi => ?_
                rw [show h.ctx.bp + 1 + i = h.ctx.bp + (i + 1) by omega]
                exact hregs (i + 1) (by omega)
            have hv' : O.native id (readAt t.mem (t.ctx.bp + 1) k) t.world = some (v, w') := by rw [w1]; exact hv
            obtain ⟨w, hp, hpr⟩ := hT.native id _ _ held _ _ _ _ hi.ok hargs.shows hargs.holds hi.world hv'
            obtain ⟨⟨ws', b1, b2⟩, b3⟩ := hI.native id _ _ _ _ hpr
            obtain ⟨held', r1, r2⟩ := acts_later b1 hi.ok hargs.holds
            obtain ⟨r3, r4⟩ := b3 _ _ v w' hargs.shows hi.world hv'
            obtain ⟨h', hg⟩ := ih _ s' _ { h with heap := hp } held' (some (.ret w)) (some (.ret v))
              ⟨⟨q5, _, _, pend_world hact.1 q6⟩, hi.onward r1 r4, r3, r2 w b2⟩ hx
            exact ⟨h', .native hfn' hok hpr hg⟩
          · simp at hx
        | curry =>
          rw [hfn'] at hf
          obtain ⟨q1, s1, tv, q2, q3, q4⟩ := curry_sim hB hact hf
          simp only [goX, q1, q2] at hx
          obtain ⟨h1, hc⟩ := curry_exists hact hh hf
          obtain ⟨held', q5⟩ := curry_heap hB hact hh hf hc q3
          obtain ⟨h', hg⟩ := ih s1 s' _ h1 held' none none (.inr ⟨q4, q5⟩) hx
          exact ⟨h', .curry hfn' hok hc hg⟩
    | some m =>
      cases act with
      | none => exact hs.elim
      | some act =>
        obtain ⟨hp, hh⟩ := hs
        cases m with
        | ret v =>
          cases act with
          | call => exact hh.elim
          | ret w =>
            obtain ⟨hi, hw⟩ := hh
            obtain ⟨hv, x, y, hp⟩ := hp
            obtain ⟨s1, q1, q2, q3⟩ := seg_ret hB hp hv
            obtain ⟨t1, ht1⟩ := q2 trivial
            obtain ⟨h1, hr⟩ := ret_exists hi.same w ht1
            obtain ⟨r1, r2, f, r3, r4, r5, r6, r7⟩ := ret_sim hi hw hr ht1
            simp only [goX, q1] at hx
            obtain ⟨h', hg⟩ := ih s1 s' t1 h1 held none none (by
              rcases q3 t1 ht1 with q4 | q4
              · exact .inl ⟨q4, r1, r2⟩
              · refine .inr ⟨q4, r1, ?_, fun _ => r2⟩
                obtain ⟨_, L, M, data', hL, _, _, _, _, _, hst⟩ := hp
                obtain ⟨f', fs, _, _, rfl, _⟩ := under_ne (b := 0) (r := []) (x := 0) hst
                rw [r3, List.cons_append] at hL
                have hne := active_fn q4
                injection hL with e1 e2
                have := hi.frames (f' :: fs) (by rw [r3, e1, e2]; rfl) f' (by simp) (by rw [← e1, ← r4]; exact hne)
                rw [← r1.same.1, r4, e1, r5, r6, r7]
                exact this) hx
            exact ⟨h', .ret hr hg⟩
        | call g vs =>
          cases act with
          | ret => exact hh.elim
          | call f args =>
            obtain ⟨hi, hw, hws⟩ := hh
            obtain ⟨hg, hvs, hp⟩ := hp
            simp only [goX] at hx
            cases har : g.arity with
            | none => simp [har] at hx
            | some m =>
              obtain ⟨data, hd⟩ := shows_fn hw.1 har
              have hl := hws.length
              simp only [har] at hx
              split at hx
              · rename_i hm1
                subst hm1
                obtain ⟨t1, ht1, hact⟩ := seg_enter hB hm hp hg har hvs
                obtain ⟨h1, he⟩ := enter_exists hi.same f hl ht1
                obtain ⟨h', hg'⟩ := ih _ s' t1 h1 held none none (.inr ⟨hact, enter_heap hB hi hp hm hg har hw hws he ht1⟩) hx
                rw [← hl] at hd
                exact ⟨h', .call hd he hg'⟩
              · rename_i hm1
                split at hx
                · rename_i hm2
                  obtain rfl : args = [] := List.length_eq_zero_iff.mp (by omega)
                  obtain ⟨h', hg'⟩ := ih _ s' t h held (some (.ret f)) (some (.ret g)) ⟨⟨hg, _, _, hp⟩, hi, hw⟩ hx
                  exact ⟨h', .callNone hd (by omega) hg'⟩
                · rename_i hm2
                  split at hx
                  · rename_i hm3
                    obtain ⟨hp', x, hn⟩ := new_exists hi.ok.run (.fn .curry (nframeOf g) (m - args.length) (f :: args))
                    obtain ⟨held', a1, a2, a3, a4, a5⟩ := new_later hi.ok hn (by
                      intro u hu
                      simp only [Cell.words, List.mem_cons] at hu
                      rcases hu with rfl | hu
                      · exact hw.2
                      · exact hws.holds u hu)
                    have hws' := a1.hasAll hws
                    obtain ⟨h', hg'⟩ := ih _ s' t { h with heap := hp' } held' (some (.ret (.ptr x))) (some (.ret (.pap g vs)))
                      ⟨⟨.pap hg hvs har (by omega) (by omega), _, _, hp⟩, hi.onward a1 (a1.world hi.ok a4 a5 hi.world),
                        .pap har (by rw [a2, hl]) (a1.has hw).1 hl hws'.shows.2, fun q hq => by cases hq; exact a3⟩ hx
                    exact ⟨h', .callLess hd (by omega) (by omega) hn hg'⟩
                  · simp at hx

end

/-- loading a file ends -/
theorem load_ends {E : Ext W} {O : Outside W} {HO : HOutside W} (hA : Agree E O) (hO : Parametric O) (hK : KeepsSane O) (hI : Implements HO O)
    (hT : Answers HO O) {malloc : List Nat → Nat} (hm : Fresh malloc) {units : List (List Lam)} (hU : UnitsOk units) {w w1 : World W} {w' : CWorld MCode W}
    {e : Core} {v : Val} {o : Operand} (hx : XEval false E [] w e v o w1) {k k' : Nat} {file : List Lam} (hk : Below k e.syms)
    (hb : NoPrims e.binders) (hfull : e.full) (ht : e.tidy []) (hc : compile e k = some (file, k')) (hsmall : SmallFrames file)
    (hpl : ∀ code ∈ units ++ [file], ∀ l ∈ code, ∀ b ∈ l.pieces, b.plain)
    (hw : MWorld units w w') (hsw : SaneWorld units w') {n : Nat} (hroom : FitsFrame n file) {h : HMach W} {held mine : List SlotId}
    (hin : InHeap n h held) (hsh : ShowsWorld h.heap w') (hmine : InCallers h mine) (hsub : ∀ x ∈ mine, x ∈ held) :
    ∃ h', HGo malloc HO (units ++ [file]) (h.loadSo units.length (file.length - 1)) none h' := by
  obtain ⟨v0, hU', hB, hseg, hact, hactive⟩ := load_state hU hc hsmall hsw hroom hin hsh hmine hsub
  obtain ⟨s', ⟨fuel, hfuel⟩, _⟩ := load_sim hA hO hx hk hb hfull ht hc (flatOf (segOf h v0 w')) hw ⟨hseg.captured, hseg.size⟩ hroom
  exact heap_exists hB hU' hK hm hI hT hpl fuel _ s' _ _ held none none (.inr ⟨hact, hactive⟩) hfuel

end Cora.Compile
