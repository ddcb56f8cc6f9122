import Verif.Lemmas.HeapGC
import Verif.Lemmas.SegMachine
/-
Blocks do on words what they do on values.
-/
open Spec.Lang Spec.Compiled
namespace Cora.Compile
open GC
variable {W : Type} [Layout]

/-! ### values -/

/-- several words -/
inductive OwnsAll (cell : SlotId → Cell) (held : List SlotId) : List Word → List MVal → Prop where
  | nil : OwnsAll cell held [] []
  | cons {w v ws vs} : Owns cell held w v → OwnsAll cell held ws vs → OwnsAll cell held (w :: ws) (v :: vs)

theorem Onward.hasAll {hp hp' : Heap W} {held held' : List SlotId} (h : Onward hp held hp' held') {ws : List Word} {vs : List MVal}
    (hw : OwnsAll hp.cell held ws vs) : OwnsAll hp'.cell held' ws vs := by
  induction hw with
  | nil => exact .nil
  | cons h1 _ ih => exact .cons (h.has h1) ih

omit [Layout] in
theorem OwnsAll.length {cell : SlotId → Cell} {held : List SlotId} {ws : List Word} {vs : List MVal} (h : OwnsAll cell held ws vs) :
    ws.length = vs.length := by
  induction h with
  | nil => rfl
  | cons _ _ ih => simp [ih]

omit [Layout] in
theorem OwnsAll.get {cell : SlotId → Cell} {held : List SlotId} {ws : List Word} {vs : List MVal} (h : OwnsAll cell held ws vs) :
    ∀ {i : Nat} {w v}, ws[i]? = some w → vs[i]? = some v → Owns cell held w v := by
  induction h with
  | nil => intro i w v h; simp at h
  | cons h1 _ ih =>
    intro i w v hw hv
    cases i with
    | zero => simp only [List.getElem?_cons_zero, Option.some.injEq] at hw hv; subst hw hv; exact h1
    | succ i => exact ih (by simpa using hw) (by simpa using hv)

omit [Layout] in
theorem OwnsAll.shows {cell : SlotId → Cell} {held : List SlotId} {ws : List Word} {vs : List MVal} (h : OwnsAll cell held ws vs) :
    ShowsAll cell ws vs := ⟨h.length, fun _ _ _ h1 h2 => (h.get h1 h2).1⟩

omit [Layout] in
theorem OwnsAll.holds {cell : SlotId → Cell} {held : List SlotId} {ws : List Word} {vs : List MVal} (h : OwnsAll cell held ws vs) :
    ∀ w ∈ ws, Holds held w := by
  induction h with
  | nil => simp
  | cons h1 _ ih =>
    intro w hw
    rcases List.mem_cons.mp hw with rfl | hw
    · exact h1.2
    · exact ih w hw

omit [Layout] in
theorem hasAll_of {cell : SlotId → Cell} {held : List SlotId} : ∀ {ws : List Word} {vs : List MVal}, ws.length = vs.length →
    (∀ (i : Nat) w v, ws[i]? = some w → vs[i]? = some v → Owns cell held w v) → OwnsAll cell held ws vs
  | [], [], _, _ => .nil
  | w :: ws, v :: vs, hl, h => .cons (h 0 w v rfl rfl) (hasAll_of (by simpa using hl) fun i w v h1 h2 => h (i + 1) w v (by simpa using h1) (by simpa using h2))

omit [Layout] in
theorem holds_none {held : List SlotId} {w : Word} (h : w.kid = none) : Holds held w := fun p hp => by rw [h] at hp; simp at hp

/-- unchanged global variables -/
theorem Onward.world {hp hp' : Heap W} {held held' : List SlotId} (h : Onward hp held hp' held') (hcol : HeapOk hp held)
    (hg : hp'.globals = hp.globals) (hr : hp'.rest = hp.rest) {w0 : CWorld MCode W} (hw : ShowsWorld hp w0) : ShowsWorld hp' w0 := by
  refine ⟨by rw [hr, hw.1], fun x => ?_⟩
  rw [hg]
  rcases hw.2 x with h1 | ⟨u, v, h1, h2, h3⟩
  · exact .inl h1
  · exact .inr ⟨u, v, h1, h2, h.keep u v h3 (hcol.globals _ (hfind_mem h1))⟩

/-! ### operands -/

/-- local variables -/
def EnvOwns (cell : SlotId → Cell) (held : List SlotId) (henv : HEnv) (env : CEnv MCode) : Prop :=
  ∀ x, (hfind x henv = none ∧ cfind x env = none) ∨ ∃ w v, hfind x henv = some w ∧ cfind x env = some v ∧ Owns cell held w v

theorem Onward.env {hp hp' : Heap W} {held held' : List SlotId} (h : Onward hp held hp' held') {henv : HEnv} {env : CEnv MCode}
    (he : EnvOwns hp.cell held henv env) : EnvOwns hp'.cell held' henv env := by
  intro x
  rcases he x with h1 | ⟨w, v, h1, h2, h3⟩
  · exact .inl h1
  · exact .inr ⟨w, v, h1, h2, h.has h3⟩

omit [Layout] in
theorem EnvOwns.cons {cell : SlotId → Cell} {held : List SlotId} {henv : HEnv} {env : CEnv MCode} (he : EnvOwns cell held henv env)
    (x : Spec.Lang.Sym) {w : Word} {v : MVal} (h : Owns cell held w v) : EnvOwns cell held ((x, w) :: henv) ((x, v) :: env) := by
  intro y
  simp only [hfind, cfind]
  by_cases hx : x = y
  · rw [if_pos hx, if_pos hx]; exact .inr ⟨w, v, rfl, rfl, h⟩
  · rw [if_neg hx, if_neg hx]; exact he y

omit [Layout] in
/-- captured variables are words of the function -/
theorem captured_data {cell : SlotId → Cell} {r0 : Word} {v0 : MVal} (h : Shows cell r0 v0) {i : Nat} {v : MVal}
    (hv : (capturedOf v0)[i]? = some v) : ∃ x w, r0 = .ptr x ∧ w ∈ (cell x).words ∧ (dataOf cell r0)[i]? = some w ∧ Shows cell w v := by
  cases h with
  | @clo x n c caps ws e hl hs =>
    simp only [capturedOf] at hv
    obtain ⟨hi, _⟩ := List.getElem?_eq_some_iff.mp hv
    have hw : ws[i]? = some (ws[i]'(by omega)) := List.getElem?_eq_getElem _
    refine ⟨x, _, rfl, ?_, ?_, hs i _ v hw hv⟩
    · rw [e]; exact List.getElem_mem _
    · simp only [dataOf, cellOf, e]; exact hw
  | _ => simp [capturedOf] at hv

section
variable {hp : Heap W} {held : List SlotId} {r0 : Word} {v0 : MVal} {henv : HEnv} {env : CEnv MCode}

theorem get_sim (hcol : HeapOk hp held) (he : EnvOwns hp.cell held henv env) (h0 : Owns hp.cell held r0 v0) {r : Ref} {v : MVal}
    (hv : r.get env (capturedOf v0) = some v) :
    ∃ w, r.hget henv (dataOf hp.cell r0) = some w ∧ ∃ held', Onward hp held hp held' ∧ Owns hp.cell held' w v := by
  cases r with
  | loc x =>
    simp only [Ref.get] at hv
    rcases he x with ⟨_, h2⟩ | ⟨w, u, h1, h2, h3⟩
    · rw [h2] at hv; simp at hv
    · rw [h2] at hv; cases hv
      exact ⟨w, h1, held, .refl hcol, h3⟩
  | cap i =>
    simp only [Ref.get] at hv
    obtain ⟨x, w, rfl, h1, h2, h3⟩ := captured_data h0.1 hv
    obtain ⟨held', h4, h5⟩ := load_later hcol (h0.2 x rfl) h1
    exact ⟨w, h2, held', h4, h3, h5⟩

theorem refs_sim : ∀ {rs : List Ref} {vs : List MVal} {held : List SlotId}, HeapOk hp held → EnvOwns hp.cell held henv env → Owns hp.cell held r0 v0 →
    getRefs env (capturedOf v0) rs = some vs →
    ∃ ws, hgetRefs henv (dataOf hp.cell r0) rs = some ws ∧ ∃ held', Onward hp held hp held' ∧ OwnsAll hp.cell held' ws vs
  | [], vs, held, hcol, he, h0, h => by
    simp only [getRefs, Option.some.injEq] at h
    subst h
    exact ⟨[], rfl, held, .refl hcol, .nil⟩
  | r :: rs, vs, held, hcol, he, h0, h => by
    rw [getRefs] at h
    split at h
    · rename_i v us h1 h2
      cases h
      obtain ⟨w, a1, held1, a2, a3⟩ := get_sim hcol he h0 h1
      obtain ⟨ws, b1, held2, b2, b3⟩ := refs_sim a2.coll (a2.env he) (a2.has h0) h2
      exact ⟨w :: ws, by simp only [hgetRefs, a1, b1], held2, a2.trans b2, .cons (b2.has a3) b3⟩
    · simp at h

omit [Layout] in
/-- the locals that are saved -/
theorem live_sim (he : EnvOwns hp.cell held henv env) : ∀ {xs : List Spec.Lang.Sym} {vs : List MVal},
    getRefs env [] (xs.map Ref.loc) = some vs → ∃ ws, hgetRefs henv [] (xs.map Ref.loc) = some ws ∧ OwnsAll hp.cell held ws vs
  | [], vs, h => by
    simp only [List.map_nil, getRefs, Option.some.injEq] at h
    subst h
    exact ⟨[], rfl, .nil⟩
  | x :: xs, vs, h => by
    rw [List.map_cons, getRefs] at h
    split at h
    · rename_i v us h1 h2
      cases h
      obtain ⟨ws, b1, b2⟩ := live_sim he h2
      simp only [Ref.get] at h1
      rcases he x with ⟨_, h3⟩ | ⟨w, u, h3, h4, h5⟩
      · rw [h3] at h1; simp at h1
      · rw [h4] at h1; cases h1
        exact ⟨w :: ws, by simp only [List.map_cons, hgetRefs, Ref.hget, h3, b1], .cons h5 b2⟩
    · simp at h

theorem eval_sim {unit : Nat} (hcol : HeapOk hp held) (he : EnvOwns hp.cell held henv env) (h0 : Owns hp.cell held r0 v0)
    {w0 : CWorld MCode W} (hw : ShowsWorld hp w0) {e : CSmp} {v : MVal} (hv : evalC unit (capturedOf v0) env w0 e = some v)
    {w : Word} {hp' : Heap W} (h : HEval unit r0 henv hp e w hp') :
    ∃ held', Onward hp held hp' held' ∧ Owns hp'.cell held' w v ∧ ShowsWorld hp' w0 := by
  cases h with
  | @const d w hd =>
    simp only [evalC, Option.some.injEq] at hv
    subst hv
    refine ⟨held, .refl hcol, ⟨?_, ?_⟩, hw⟩
    · cases d <;> simp only [wordOf, Option.some.injEq, reduceCtorEq] at hd <;> subst hd <;> constructor
    · cases d <;> simp only [wordOf, Option.some.injEq, reduceCtorEq] at hd <;> subst hd <;> exact holds_none rfl
  | str hn =>
    simp only [evalC, Option.some.injEq] at hv
    subst hv
    obtain ⟨held', h1, h2, h3, h4, h5⟩ := new_later hcol hn (by simp [Cell.words])
    exact ⟨held', h1, ⟨.str h2, fun p hp => by cases hp; exact h3⟩, h1.world hcol h4 h5 hw⟩
  | @global x w hf =>
    simp only [evalC] at hv
    rcases hw.2 x with ⟨_, h2⟩ | ⟨u, v', h1, h2, h3⟩
    · rw [h2] at hv; simp at hv
    · rw [h2] at hv; cases hv
      rw [h1] at hf; cases hf
      exact ⟨held, .refl hcol, ⟨h3, hcol.globals _ (hfind_mem h1)⟩, hw⟩
  | ref hr =>
    simp only [evalC] at hv
    obtain ⟨w', h1, held', h2, h3⟩ := get_sim hcol he h0 hv
    rw [h1] at hr; cases hr
    exact ⟨held', h2, h3, hw⟩
  | @closure label nargs nframe frees ws _ x hr hn =>
    simp only [evalC, Option.map_eq_some_iff] at hv
    obtain ⟨vs, hvs, rfl⟩ := hv
    obtain ⟨ws', h1, held1, h2, h3⟩ := refs_sim hcol he h0 hvs
    rw [h1] at hr; cases hr
    obtain ⟨held', a1, a2, a3, a4, a5⟩ := new_later h2.coll hn h3.holds
    have h3' := a1.hasAll h3
    exact ⟨held', h2.trans a1, ⟨.clo a2 h3'.length fun i w v b1 b2 => (h3'.get b1 b2).1, fun p hp => by cases hp; exact a3⟩,
      a1.world h2.coll a4 a5 hw⟩

end

theorem evals_sim {unit : Nat} {r0 : Word} {v0 : MVal} {henv : HEnv} {env : CEnv MCode} {hp hp' : Heap W} {es : List CSmp} {ws : List Word}
    (h : HEvals unit r0 henv hp es ws hp') : ∀ {held : List SlotId}, HeapOk hp held → EnvOwns hp.cell held henv env → Owns hp.cell held r0 v0 →
    ∀ {w0 : CWorld MCode W}, ShowsWorld hp w0 → ∀ {vs : List MVal}, evalCs unit (capturedOf v0) env w0 es = some vs →
    ∃ held', Onward hp held hp' held' ∧ OwnsAll hp'.cell held' ws vs ∧ ShowsWorld hp' w0 := by
  induction h with
  | nil hp =>
    intro held hcol he h0 w0 hw vs hvs
    simp only [evalCs, Option.some.injEq] at hvs
    subst hvs
    exact ⟨held, .refl hcol, .nil, hw⟩
  | cons h1 _ ih =>
    intro held hcol he h0 w0 hw vs hvs
    rw [evalCs] at hvs
    split at hvs
    · rename_i v us b1 b2
      cases hvs
      obtain ⟨held1, a1, a2, a3⟩ := eval_sim hcol he h0 hw b1 h1
      obtain ⟨held2, a4, a5, a6⟩ := ih a1.coll (a1.env he) (a1.has h0) a3 b2
      exact ⟨held2, a1.trans a4, .cons (a4.has a2) a5, a6⟩
    · simp at hvs

/-! ### primitives -/

omit [Layout] in
theorem shows_denotes {cell : SlotId → Cell} {w : Word} {v : MVal} (h : Shows cell w v) : ∀ {d : Datum}, Denotes cell w d ↔ v.datum = some d := by
  induction h with
  | int n => intro d; exact ⟨fun h => by cases h; rfl, fun h => by cases h; exact .int n⟩
  | bool n => intro d; exact ⟨fun h => by cases h; rfl, fun h => by cases h; exact .bool n⟩
  | nil => intro d; exact ⟨fun h => by cases h; rfl, fun h => by cases h; exact .nil⟩
  | sym n => intro d; exact ⟨fun h => by cases h; rfl, fun h => by cases h; exact .sym n⟩
  | str e =>
    intro d
    refine ⟨fun h => ?_, fun h => by cases h; exact .str e⟩
    cases h with
    | str e' => rw [e] at e'; cases e'; rfl
    | cons e' => rw [e] at e'; cases e'
  | @cons x a d u v e _ _ ih1 ih2 =>
    intro dd
    simp only [CVal.datum]
    constructor
    · intro h
      cases h with
      | str e' => rw [e] at e'; cases e'
      | cons e' h1 h2 =>
        rw [e] at e'; cases e'
        rw [ih1] at h1
        rw [ih2] at h2
        rw [h1, h2]
    · intro h
      split at h
      · rename_i x y h1 h2
        cases h
        exact .cons e (ih1.mpr h1) (ih2.mpr h2)
      · simp at h
  | clo e | native e =>
    intro d
    refine ⟨fun h => ?_, fun h => by simp [CVal.datum] at h⟩
    cases h <;> rename_i e' <;> first | (rw [e] at e'; cases e') | skip
    all_goals (rename_i e' _; rw [e] at e'; cases e')
  | prim _ e =>
    intro d
    refine ⟨fun h => ?_, fun h => by simp [CVal.datum] at h⟩
    cases h <;> rename_i e' <;> first | (rw [e] at e'; cases e') | skip
    all_goals (rename_i e' _; rw [e] at e'; cases e')
  | pap _ e =>
    intro d
    refine ⟨fun h => ?_, fun h => by simp [CVal.datum] at h⟩
    cases h <;> rename_i e' <;> first | (rw [e] at e'; cases e') | skip
    all_goals (rename_i e' _; rw [e] at e'; cases e')

theorem coutside_sim {HO : HOutside W} {O : Outside W} (hI : Implements HO O) {hp hp' : Heap W} {held : List SlotId} (hcol : HeapOk hp held)
    {p : String} {ws : List Word} {vs : List MVal} (hws : OwnsAll hp.cell held ws vs) {w0 w1 : CWorld MCode W} (hw : ShowsWorld hp w0) {v : MVal}
    (hv : coutside O p vs w0 = some (v, w1)) {w : Word} (h : HO.prim p ws hp w hp') :
    ∃ held', Onward hp held hp' held' ∧ Owns hp'.cell held' w v ∧ ShowsWorld hp' w1 := by
  obtain ⟨⟨ws', h1, h2⟩, h3⟩ := hI.prim p ws hp w hp' h
  obtain ⟨held', h4, h5⟩ := acts_later h1 hcol hws.holds
  obtain ⟨h6, h7⟩ := h3 vs w0 v w1 hws.shows hw hv
  exact ⟨held', h4, ⟨h6, h5 w h2⟩, h7⟩

/-- the primitives that are modelled -/
def known : List String := ["set", "car", "cdr", "cons", "cons?", "=", "not", "symbol?", "integer?", "string?"]

omit [Layout] in
theorem hprim_out {cell : SlotId → Cell} {p : String} (hp : p ∉ known) (ws : List Word) : hprim cell p ws = some .out := by
  simp only [known, List.mem_cons, List.not_mem_nil, or_false, not_or] at hp
  unfold hprim
  split <;> first | (exfalso; simp_all; done) | rfl

omit [Layout] in
theorem cprim_out {O : Outside W} {p : String} (hp : p ∉ known) (vs : List MVal) (w : CWorld MCode W) :
    cprim O p vs w = coutside O p vs w := by
  simp only [known, List.mem_cons, List.not_mem_nil, or_false, not_or] at hp
  unfold cprim
  split <;> first | (exfalso; simp_all; done) | rfl

theorem shows_set {hp : Heap W} {x : Spec.Lang.Sym} {w : Word} {v : MVal} {gc : St} {w0 : CWorld MCode W} (hw : ShowsWorld hp w0)
    (hv : Shows hp.cell w v) : ShowsWorld { hp with gc := gc, globals := hassign x w hp.globals } (w0.set x v) := by
  refine ⟨hw.1, fun y => ?_⟩
  simp only [CWorld.set, hfind_hassign]
  by_cases h : y = x
  · rw [if_pos h, if_pos h]
    exact .inr ⟨w, v, rfl, rfl, hv⟩
  · rw [if_neg h, if_neg h]
    exact hw.2 y

section
variable {HO : HOutside W} {O : Outside W} {hp hp' : Heap W} {held : List SlotId} {p : String} {ws : List Word} {w : Word}

/-- what a primitive is asked to do fits the value it gives -/
inductive ReqFits (O : Outside W) (hp : Heap W) (held : List SlotId) (p : String) (ws : List Word) (vs : List MVal) (w0 : CWorld MCode W)
    (v : MVal) (w1 : CWorld MCode W) : Req → Prop where
  | now {u held'} : w1 = w0 → Onward hp held hp held' → Owns hp.cell held' u v → ReqFits O hp held p ws vs w0 v w1 (.now u)
  | new {a d x y} : w1 = w0 → Owns hp.cell held a x → Owns hp.cell held d y → v = .cons x y → ReqFits O hp held p ws vs w0 v w1 (.new (.cons a d))
  | set {x u} : w1 = w0.set x v → Owns hp.cell held u v → ReqFits O hp held p ws vs w0 v w1 (.set x u)
  | eq {a b x y} : Shows hp.cell a x → Shows hp.cell b y → cprim O "=" [x, y] w0 = some (v, w1) → p = "=" → vs = [x, y] →
      ReqFits O hp held p ws vs w0 v w1 (.eq a b)
  | out : coutside O p vs w0 = some (v, w1) → ReqFits O hp held p ws vs w0 v w1 .out

theorem prim_fits (hcol : HeapOk hp held) {vs : List MVal} (hws : OwnsAll hp.cell held ws vs) {w0 w1 : CWorld MCode W} {v : MVal}
    (hv : cprim O p vs w0 = some (v, w1)) : ∃ r, hprim hp.cell p ws = some r ∧ ReqFits O hp held p ws vs w0 v w1 r := by
  have bool : ∀ {b u held}, w1 = w0 → HeapOk hp held → u = .bool b → v = .bool b → ReqFits O hp held p ws vs w0 v w1 (.now u) :=
    fun h1 hc h2 h3 => .now h1 (.refl hc) (by subst h2 h3; exact ⟨.bool _, holds_none rfl⟩)
  by_cases hn : p ∈ known
  · simp only [known, List.mem_cons, List.not_mem_nil, or_false] at hn
    cases hws with
    | nil =>
      rcases hn with rfl | rfl | rfl | rfl | rfl | rfl | rfl | rfl | rfl | rfl <;> simp [cprim] at hv <;> exact ⟨.out, by simp [hprim], .out hv⟩
    | @cons u1 v1 ws vs h1 hws =>
      cases hws with
      | nil =>
        rcases hn with rfl | rfl | rfl | rfl | rfl | rfl | rfl | rfl | rfl | rfl
        · simp [cprim] at hv
        · obtain ⟨h11, h12⟩ := h1
          cases h11 <;> simp [cprim] at hv
          rename_i x a d u v e s1 s2
          obtain ⟨rfl, rfl⟩ := hv
          obtain ⟨held', g1, g2⟩ := load_later hcol (h12 _ rfl) (w := a) (by rw [e]; simp [Cell.words])
          exact ⟨.now a, by simp [hprim, cellOf, e], .now rfl g1 ⟨s1, g2⟩⟩
        · obtain ⟨h11, h12⟩ := h1
          cases h11 <;> simp [cprim] at hv
          rename_i x a d u v e s1 s2
          obtain ⟨rfl, rfl⟩ := hv
          obtain ⟨held', g1, g2⟩ := load_later hcol (h12 _ rfl) (w := d) (by rw [e]; simp [Cell.words])
          exact ⟨.now d, by simp [hprim, cellOf, e], .now rfl g1 ⟨s2, g2⟩⟩
        · simp [cprim] at hv; exact ⟨.out, by simp [hprim], .out hv⟩
        · obtain ⟨h11, h12⟩ := h1
          cases h11 <;> simp [cprim] at hv <;> exact ⟨_, by simp [hprim, cellOf, *], bool hv.2.symm hcol rfl hv.1.symm⟩
        · simp [cprim] at hv; exact ⟨.out, by simp [hprim], .out hv⟩
        · obtain ⟨h11, h12⟩ := h1
          cases h11 <;> simp [cprim] at hv <;> exact ⟨_, by simp [hprim, cellOf, *], bool hv.2.symm hcol rfl hv.1.symm⟩
        · obtain ⟨h11, h12⟩ := h1
          cases h11 <;> simp [cprim] at hv <;> exact ⟨_, by simp [hprim, cellOf, *], bool hv.2.symm hcol rfl hv.1.symm⟩
        · obtain ⟨h11, h12⟩ := h1
          cases h11 <;> simp [cprim] at hv <;> first
            | exact ⟨_, by simp [hprim, cellOf, *], bool hv.2.symm hcol rfl hv.1.symm⟩
            | exact ⟨.out, by simp [hprim, cellOf, *], .out hv⟩
        · obtain ⟨h11, h12⟩ := h1
          cases h11 <;> simp [cprim] at hv <;> first
            | exact ⟨_, by simp [hprim, cellOf, *], bool hv.2.symm hcol rfl hv.1.symm⟩
            | exact ⟨.out, by simp [hprim, cellOf, *], .out hv⟩
      | @cons u2 v2 ws vs h2 hws =>
        cases hws with
        | nil =>
          rcases hn with rfl | rfl | rfl | rfl | rfl | rfl | rfl | rfl | rfl | rfl
          · obtain ⟨h11, h12⟩ := h1
            cases h11 <;> simp [cprim] at hv
            obtain ⟨rfl, rfl⟩ := hv
            exact ⟨_, by simp [hprim], .set rfl h2⟩
          · simp [cprim] at hv
          · simp [cprim] at hv
          · simp [cprim] at hv
            exact ⟨_, by simp [hprim], .new hv.2.symm h1 h2 hv.1.symm⟩
          · simp [cprim] at hv; exact ⟨.out, by simp [hprim], .out hv⟩
          · exact ⟨_, by simp [hprim], .eq h1.1 h2.1 hv rfl rfl⟩
          · simp [cprim] at hv
          all_goals (simp [cprim] at hv; exact ⟨.out, by simp [hprim], .out hv⟩)
        | cons h3 _ =>
          rcases hn with rfl | rfl | rfl | rfl | rfl | rfl | rfl | rfl | rfl | rfl <;> simp [cprim] at hv <;> exact ⟨.out, by simp [hprim], .out hv⟩
  · rw [cprim_out hn] at hv
    exact ⟨.out, hprim_out hn _, .out hv⟩

theorem prim_sim (hI : Implements HO O) (hcol : HeapOk hp held) {vs : List MVal} (hws : OwnsAll hp.cell held ws vs) {w0 w1 : CWorld MCode W}
    (hw : ShowsWorld hp w0) {v : MVal} (hv : cprim O p vs w0 = some (v, w1)) (h : HPrim HO p ws hp w hp') :
    ∃ held', Onward hp held hp' held' ∧ Owns hp'.cell held' w v ∧ ShowsWorld hp' w1 := by
  obtain ⟨r, hr, hf⟩ := prim_fits hcol hws hv
  have none_of : ∀ {a : Word} {x : MVal}, Shows hp.cell a x → (∀ u, ¬ Denotes hp.cell a u) → x.datum = none := by
    intro a x h1 h2
    cases e : x.datum with
    | none => rfl
    | some d => exact absurd ((shows_denotes h1).mpr e) (h2 d)
  cases h with
  | now h =>
    rw [hr] at h; cases h
    cases hf with
    | now h1 h2 h3 => subst h1; exact ⟨_, h2, h3, hw⟩
  | new h hn =>
    rw [hr] at h; cases h
    cases hf with
    | new h1 h2 h3 h4 =>
      subst h1 h4
      obtain ⟨held', a1, a2, a3, a4, a5⟩ := new_later hcol hn (by
        intro w hw; simp only [Cell.words, List.mem_cons, List.not_mem_nil, or_false] at hw
        rcases hw with rfl | rfl
        · exact h2.2
        · exact h3.2)
      exact ⟨held', a1, ⟨.cons a2 (a1.has h2).1 (a1.has h3).1, fun p hp => by cases hp; exact a3⟩, a1.world hcol a4 a5 hw⟩
  | @set y _ _ h hs =>
    rw [hr] at h; cases h
    cases hf with
    | set h1 h2 =>
      subst h1
      obtain ⟨a1, a2, a3, a4⟩ := setGlobal_later hcol h2.2 hs
      refine ⟨held, a1, a1.has h2, ?_⟩
      have := shows_set (x := y) (gc := hp'.gc) hw h2.1
      cases hp'
      simp only at a2 a3 a4
      subst a2 a3 a4
      exact this
  | eq h e1 e2 =>
    rw [hr] at h; cases h
    cases hf with
    | eq h1 h2 h3 =>
      rw [shows_denotes h1] at e1
      rw [shows_denotes h2] at e2
      simp only [cprim, e1, e2, Option.some.injEq, Prod.mk.injEq] at h3
      obtain ⟨rfl, rfl⟩ := h3
      exact ⟨held, .refl hcol, ⟨.bool _, holds_none rfl⟩, hw⟩
  | eqLeft h e1 e2 =>
    rw [hr] at h; cases h
    cases hf with
    | eq h1 h2 h3 =>
      rw [shows_denotes h1] at e1
      simp only [cprim, e1, none_of h2 e2, Option.some.injEq, Prod.mk.injEq] at h3
      obtain ⟨rfl, rfl⟩ := h3
      exact ⟨held, .refl hcol, ⟨.bool _, holds_none rfl⟩, hw⟩
  | eqRight h e1 e2 =>
    rw [hr] at h; cases h
    cases hf with
    | eq h1 h2 h3 =>
      rw [shows_denotes h2] at e2
      simp only [cprim, e2, none_of h1 e1, Option.some.injEq, Prod.mk.injEq] at h3
      obtain ⟨rfl, rfl⟩ := h3
      exact ⟨held, .refl hcol, ⟨.bool _, holds_none rfl⟩, hw⟩
  | eqOut h e1 e2 ho =>
    rw [hr] at h; cases h
    cases hf with
    | eq h1 h2 h3 h4 h5 =>
      simp only [cprim, none_of h1 e1, none_of h2 e2] at h3
      subst h4 h5
      exact coutside_sim hI hcol hws hw h3 ho
  | out h ho =>
    rw [hr] at h; cases h
    cases hf with
    | out h1 => exact coutside_sim hI hcol hws hw h1 ho

end

/-! ### statements -/

/-- how a block ends, on words -/
def HExit (h h' : HMach W) (a : HAct) (held' : List SlotId) : Exit → Prop
  | .ret v => ∃ w, a = .ret w ∧ h' = { h with heap := h'.heap } ∧ Owns h'.heap.cell held' w v
  | .tail g vs => ∃ f ws, a = .call f ws ∧ h' = { h with heap := h'.heap, ctx := { h.ctx with sp := h.ctx.bp } } ∧
      Owns h'.heap.cell held' f g ∧ OwnsAll h'.heap.cell held' ws vs
  | .call l us g vs => ∃ us' f ws, a = .call f ws ∧
      h' = { h with heap := h'.heap, mem := storeW h.mem (h.ctx.bp + 1) us', frames := { h.ctx with label := l } :: h.frames } ∧
      OwnsAll h'.heap.cell held' us' us ∧ Owns h'.heap.cell held' f g ∧ OwnsAll h'.heap.cell held' ws vs

omit [Layout] in
theorem HExit.heap {h h' : HMach W} {hp : Heap W} {a : HAct} {held' : List SlotId} {e : Exit} (hx : HExit { h with heap := hp } h' a held' e) :
    HExit h h' a held' e := by
  cases e <;> exact hx

omit [Layout] in
theorem shows_true {cell : SlotId → Cell} {v : MVal} (h : Shows cell (.bool true) v) : v.isTrue = true := by
  cases h; rfl

omit [Layout] in
theorem shows_false {cell : SlotId → Cell} {w : Word} {v : MVal} (h : Shows cell w v) (hw : w ≠ .bool true) : v.isTrue = false := by
  cases h with
  | bool b => cases b with
    | true => exact absurd rfl hw
    | false => rfl
  | _ => rfl

theorem exec_sim {HO : HOutside W} {O : Outside W} (hI : Implements HO O) {u : Nat} {k : CStm} {henv : HEnv} {h h' : HMach W} {a : HAct}
    (hx : HExec HO u k henv h h' a) : ∀ {held : List SlotId} {env : CEnv MCode} {v0 : MVal} {w0 w1 : CWorld MCode W} {e : Exit},
    HeapOk h.heap held → EnvOwns h.heap.cell held henv env → Owns h.heap.cell held (h.mem h.ctx.bp) v0 → ShowsWorld h.heap w0 →
    outcome O u (capturedOf v0) k env w0 = some (w1, e) →
    ∃ held', Onward h.heap held h'.heap held' ∧ ShowsWorld h'.heap w1 ∧ HExit h h' a held' e := by
  induction hx with
  | ret h1 =>
    intro held env v0 w0 w1 e hcol he h0 hw ho
    simp only [outcome, Option.map_eq_some_iff] at ho
    obtain ⟨v, hv, ho⟩ := ho
    cases ho
    obtain ⟨held', a1, a2, a3⟩ := eval_sim hcol he h0 hw hv h1
    exact ⟨held', a1, a3, _, rfl, rfl, a2⟩
  | tail h1 h2 =>
    intro held env v0 w0 w1 e hcol he h0 hw ho
    simp only [outcome] at ho
    split at ho
    · rename_i g vs hg hvs
      cases ho
      obtain ⟨held1, a1, a2, a3⟩ := eval_sim hcol he h0 hw hg h1
      obtain ⟨held', b1, b2, b3⟩ := evals_sim h2 a1.coll (a1.env he) (a1.has h0) a3 hvs
      exact ⟨held', a1.trans b1, b3, _, _, rfl, rfl, b1.has a2, b2⟩
    · simp at ho
  | call hl h1 h2 =>
    intro held env v0 w0 w1 e hcol he h0 hw ho
    simp only [outcome] at ho
    split at ho
    · rename_i us hus
      split at ho
      · rename_i g vs hg hvs
        cases ho
        obtain ⟨us', c1, c2⟩ := live_sim he hus
        rw [c1] at hl; cases hl
        obtain ⟨held1, a1, a2, a3⟩ := eval_sim hcol he h0 hw hg h1
        obtain ⟨held', b1, b2, b3⟩ := evals_sim h2 a1.coll (a1.env he) (a1.has h0) a3 hvs
        exact ⟨held', a1.trans b1, b3, _, _, _, rfl, rfl, (a1.trans b1).hasAll c2, b1.has a2, b2⟩
      · simp at ho
    · simp at ho
  | bind h1 _ ih =>
    intro held env v0 w0 w1 e hcol he h0 hw ho
    simp only [outcome] at ho
    split at ho
    · rename_i v hv
      obtain ⟨held1, a1, a2, a3⟩ := eval_sim hcol he h0 hw hv h1
      obtain ⟨held', b1, b2, b3⟩ := ih a1.coll ((a1.env he).cons _ a2) (a1.has h0) a3 ho
      exact ⟨held', a1.trans b1, b2, b3.heap⟩
    · simp at ho
  | prim h1 h2 _ ih =>
    intro held env v0 w0 w1 e hcol he h0 hw ho
    simp only [outcome] at ho
    split at ho
    · rename_i vs hvs
      split at ho
      · rename_i v w2 hv
        obtain ⟨held1, a1, a2, a3⟩ := evals_sim h1 hcol he h0 hw hvs
        obtain ⟨held2, c1, c2, c3⟩ := prim_sim hI a1.coll a2 a3 hv h2
        have ac := a1.trans c1
        obtain ⟨held', b1, b2, b3⟩ := ih ac.coll ((ac.env he).cons _ c2) (ac.has h0) c3 ho
        exact ⟨held', ac.trans b1, b2, b3.heap⟩
      · simp at ho
    · simp at ho
  | seq h1 _ ih =>
    intro held env v0 w0 w1 e hcol he h0 hw ho
    simp only [outcome] at ho
    split at ho
    · rename_i v hv
      obtain ⟨held1, a1, a2, a3⟩ := eval_sim hcol he h0 hw hv h1
      obtain ⟨held', b1, b2, b3⟩ := ih a1.coll (a1.env he) (a1.has h0) a3 ho
      exact ⟨held', a1.trans b1, b2, b3.heap⟩
    · simp at ho
  | iteTrue h1 _ ih =>
    intro held env v0 w0 w1 e hcol he h0 hw ho
    simp only [outcome] at ho
    split at ho
    · rename_i v hv
      obtain ⟨held1, a1, a2, a3⟩ := eval_sim hcol he h0 hw hv h1
      rw [shows_true a2.1, if_pos rfl] at ho
      obtain ⟨held', b1, b2, b3⟩ := ih a1.coll (a1.env he) (a1.has h0) a3 ho
      exact ⟨held', a1.trans b1, b2, b3.heap⟩
    · simp at ho
  | iteFalse h1 hn _ ih =>
    intro held env v0 w0 w1 e hcol he h0 hw ho
    simp only [outcome] at ho
    split at ho
    · rename_i v hv
      obtain ⟨held1, a1, a2, a3⟩ := eval_sim hcol he h0 hw hv h1
      rw [shows_false a2.1 hn, if_neg (by simp)] at ho
      obtain ⟨held', b1, b2, b3⟩ := ih a1.coll (a1.env he) (a1.has h0) a3 ho
      exact ⟨held', a1.trans b1, b2, b3.heap⟩
    · simp at ho

end Cora.Compile
