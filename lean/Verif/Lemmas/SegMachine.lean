import Verif.Spec.Segments
import Verif.Lemmas.CompileWhole
/-
Running on segments is running on one unbounded array.
-/
open Spec.Lang Spec.Compiled
namespace Cora.Compile
variable {W : Type}

/-! ### what a block does -/

/-- how a block ends -/
inductive Exit where
  | ret (v : MVal)
  | tail (g : MVal) (vs : List MVal)
  | call (label : Nat) (us : List MVal) (g : MVal) (vs : List MVal)

/-- a block, without the machine -/
def outcome (O : Outside W) (unit : Nat) (caps : List MVal) : CStm → CEnv MCode → CWorld MCode W → Option (CWorld MCode W × Exit)
  | .ret e, env, w => (evalC unit caps env w e).map fun v => (w, .ret v)
  | .tail f args, env, w =>
    match evalC unit caps env w f, evalCs unit caps env w args with
    | some g, some vs => some (w, .tail g vs)
    | _, _ => none
  | .call f args label live, env, w =>
    match getRefs env [] (live.map Ref.loc) with
    | some us =>
      match evalC unit caps env w f, evalCs unit caps env w args with
      | some g, some vs => some (w, .call label us g vs)
      | _, _ => none
    | none => none
  | .bind x e k, env, w =>
    match evalC unit caps env w e with
    | some v => outcome O unit caps k ((x, v) :: env) w
    | none => none
  | .prim x p args k, env, w =>
    match evalCs unit caps env w args with
    | some vs =>
      match cprim O p vs w with
      | some (v, w) => outcome O unit caps k ((x, v) :: env) w
      | none => none
    | none => none
  | .seq e k, env, w =>
    match evalC unit caps env w e with
    | some _ => outcome O unit caps k env w
    | none => none
  | .ite e a b, env, w =>
    match evalC unit caps env w e with
    | some v => if v.isTrue then outcome O unit caps a env w else outcome O unit caps b env w
    | none => none

/-- what it makes of the machine -/
def Mach.after (s : Mach W) : CWorld MCode W × Exit → Mach W × MAct
  | (w, .ret v) => ({ s with world := w }, .ret v)
  | (w, .tail g vs) => ({ s with world := w, ctx := { s.ctx with sp := s.ctx.bp } }, .call g vs)
  | (w, .call l us g vs) =>
    ({ s with world := w, stack := storeAt s.stack (s.ctx.bp + 1) us, frames := { s.ctx with label := l } :: s.frames }, .call g vs)

theorem after_world (s : Mach W) (w : CWorld MCode W) (r) : Mach.after { s with world := w } r = s.after r := by
  obtain ⟨w', e⟩ := r
  cases e <;> rfl

theorem execC_outcome (O : Outside W) (unit : Nat) : ∀ (k : CStm) (env : CEnv MCode) (s : Mach W),
    execC O unit k env s = (outcome O unit (capturedOf (s.stack s.ctx.bp)) k env s.world).map s.after := by
  intro k
  induction k with
  | ret e => intro env s; rw [execC, outcome]; cases evalC unit (capturedOf (s.stack s.ctx.bp)) env s.world e <;> rfl
  | tail f args =>
    intro env s; rw [execC, outcome]
    cases evalC unit (capturedOf (s.stack s.ctx.bp)) env s.world f <;>
      cases evalCs unit (capturedOf (s.stack s.ctx.bp)) env s.world args <;> rfl
  | call f args label live =>
    intro env s; rw [execC, outcome]
    cases hu : getRefs env [] (live.map Ref.loc) with
    | none => rfl
    | some us =>
      have : storeAt s.stack (s.ctx.bp + 1) us s.ctx.bp = s.stack s.ctx.bp := storeAt_out (by omega)
      simp only [this]
      cases evalC unit (capturedOf (s.stack s.ctx.bp)) env s.world f <;>
        cases evalCs unit (capturedOf (s.stack s.ctx.bp)) env s.world args <;> rfl
  | bind x e k ih =>
    intro env s; rw [execC, outcome]
    cases evalC unit (capturedOf (s.stack s.ctx.bp)) env s.world e with
    | none => rfl
    | some v => exact ih _ _
  | prim x p args k ih =>
    intro env s; rw [execC, outcome]
    cases evalCs unit (capturedOf (s.stack s.ctx.bp)) env s.world args with
    | none => rfl
    | some vs =>
      simp only
      cases cprim O p vs s.world with
      | none => rfl
      | some r =>
        obtain ⟨v, w⟩ := r
        simp only
        rw [ih]
        simp only [funext (after_world s w)]
  | seq e k ih =>
    intro env s; rw [execC, outcome]
    cases evalC unit (capturedOf (s.stack s.ctx.bp)) env s.world e with
    | none => rfl
    | some v => exact ih _ _
  | ite e a b iha ihb =>
    intro env s; rw [execC, outcome]
    cases evalC unit (capturedOf (s.stack s.ctx.bp)) env s.world e with
    | none => rfl
    | some v =>
      simp only
      split
      · exact iha _ _
      · exact ihb _ _

/-! ### values -/

section
variable {units : List (List Lam)}

theorem primArity_small {p : String} {n : Nat} (h : primArity p = some n) : n ≤ 2 := by
  unfold primArity at h
  split at h <;> simp_all <;> omega

/-- a function has room for its arguments, in one segment -/
theorem sane_frame {v : MVal} (h : Sane units v) : ∀ {n : Nat}, v.arity = some n → n < nframeOf v ∧ nframeOf v < 256 := by
  induction h with
  | clo h1 h2 h3 h4 h5 h6 =>
    rename_i lam _
    intro n hn
    simp only [CVal.arity, Option.some.injEq] at hn
    simp only [nframeOf]
    have := (frameSize_spec lam).1
    omega
  | prim h1 =>
    intro n hn
    simp only [CVal.arity] at hn
    have := primArity_small hn
    simp only [nframeOf, hn, Option.getD_some]
    omega
  | native h1 =>
    intro n hn
    simp only [CVal.arity, Option.some.injEq] at hn
    simp only [nframeOf]
    omega
  | pap h1 h2 h3 h4 h5 ih _ =>
    intro n hn
    simp only [CVal.arity, h3, Option.map_some, Option.some.injEq] at hn
    have := ih h3
    simp only [nframeOf]
    omega
  | _ => intro n hn; simp [CVal.arity] at hn

theorem sane_cval (d : Datum) : Sane units (cval d) := by
  induction d with
  | int n => exact .int n
  | bool b => exact .bool b
  | nil => exact .nil
  | str s => exact .str s
  | sym x => exact .sym x
  | cons a d iha ihd => exact .cons iha ihd

theorem sane_set {w : CWorld MCode W} (hw : SaneWorld units w) {x : Spec.Lang.Sym} {v : MVal} (hv : Sane units v) :
    SaneWorld units (w.set x v) := by
  intro y u hu
  simp only [CWorld.set] at hu
  split at hu
  · cases hu; exact hv
  · exact hw y u hu

theorem coutside_sane {O : Outside W} (hO : KeepsSane O) {p : String} {args : List MVal} {w w' : CWorld MCode W} {v : MVal}
    (ha : ∀ a ∈ args, Sane units a) (hw : SaneWorld units w) (h : coutside O p args w = some (v, w')) :
    Sane units v ∧ SaneWorld units w' := by
  simp only [coutside, Option.map_eq_some_iff] at h
  obtain ⟨⟨u, r⟩, h1, h2⟩ := h
  cases h2
  exact ⟨hO.1 units p args _ _ _ ha h1, hw⟩

theorem cprim_sane {O : Outside W} (hO : KeepsSane O) {p : String} {args : List MVal} {w w' : CWorld MCode W} {v : MVal}
    (ha : ∀ a ∈ args, Sane units a) (hw : SaneWorld units w) (h : cprim O p args w = some (v, w')) :
    Sane units v ∧ SaneWorld units w' := by
  unfold cprim at h
  split at h
  · cases h; exact ⟨ha _ (by simp), sane_set hw (ha _ (by simp))⟩
  · cases h; cases ha _ List.mem_cons_self with | cons h1 h2 => exact ⟨h1, hw⟩
  · cases h; cases ha _ List.mem_cons_self with | cons h1 h2 => exact ⟨h2, hw⟩
  · cases h; exact ⟨.cons (ha _ (by simp)) (ha _ (by simp)), hw⟩
  · cases h; exact ⟨.bool _, hw⟩
  · cases h; exact ⟨.bool _, hw⟩
  · split at h
    · cases h; exact ⟨.bool _, hw⟩
    · exact coutside_sane hO ha hw h
    · cases h; exact ⟨.bool _, hw⟩
  · cases h; exact ⟨.bool _, hw⟩
  · cases h; exact ⟨.bool _, hw⟩
  · cases h; exact ⟨.bool _, hw⟩
  · cases h; exact ⟨.bool _, hw⟩
  · cases h; exact ⟨.bool _, hw⟩
  · simp at h
  · simp at h
  · simp at h
  · simp at h
  · exact coutside_sane hO ha hw h

theorem cfind_sane {env : CEnv MCode} (he : ∀ q ∈ env, Sane units q.2) {x : Spec.Lang.Sym} {v : MVal} (h : cfind x env = some v) :
    Sane units v := by
  induction env with
  | nil => simp [cfind] at h
  | cons q env ih =>
    obtain ⟨y, u⟩ := q
    simp only [cfind] at h
    split at h
    · cases h; exact he (y, v) (by simp)
    · exact ih (fun q hq => he q (by simp [hq])) h

theorem get_sane {env : CEnv MCode} (he : ∀ q ∈ env, Sane units q.2) {caps : List MVal} (hc : ∀ v ∈ caps, Sane units v) {r : Ref}
    {v : MVal} (h : r.get env caps = some v) : Sane units v := by
  cases r with
  | loc x => exact cfind_sane he h
  | cap i => exact hc v (List.mem_of_getElem? h)

theorem getRefs_sane {env : CEnv MCode} (he : ∀ q ∈ env, Sane units q.2) {caps : List MVal} (hc : ∀ v ∈ caps, Sane units v) :
    ∀ {rs : List Ref} {vs : List MVal}, getRefs env caps rs = some vs → vs.length = rs.length ∧ ∀ v ∈ vs, Sane units v
  | [], vs, h => by simp only [getRefs, Option.some.injEq] at h; subst h; simp
  | r :: rs, vs, h => by
    rw [getRefs] at h
    split at h
    · rename_i v us h1 h2
      obtain ⟨h3, h4⟩ := getRefs_sane he hc h2
      cases h
      refine ⟨by simp [h3], fun u hu => ?_⟩
      rcases List.mem_cons.mp hu with rfl | hu
      · exact get_sane he hc h1
      · exact h4 u hu
    · simp at h

/-- the files are right: functions are made with the right numbers, calls have their continuations, frames are small -/
def UnitsOk (units : List (List Lam)) : Prop := ∀ code ∈ units, SmallFrames code ∧ ∀ lam ∈ code, GoodLam code lam

/-- closures in an operand are right -/
theorem evalC_sane {u : Nat} {code : List Lam} (hu : units[u]? = some code) (hs : SmallFrames code) {caps : List MVal}
    (hc : ∀ v ∈ caps, Sane units v) {env : CEnv MCode} (he : ∀ q ∈ env, Sane units q.2) {w : CWorld MCode W} (hw : SaneWorld units w)
    {e : CSmp} (hq : ∀ q ∈ e.closures, GoodClosure code q) {v : MVal} (h : evalC u caps env w e = some v) : Sane units v := by
  cases e with
  | const d => simp only [evalC, Option.some.injEq] at h; subst h; exact sane_cval d
  | global x => exact hw _ _ h
  | ref r => exact get_sane he hc h
  | closure label nargs nframe frees =>
    simp only [evalC, Option.map_eq_some_iff] at h
    obtain ⟨vs, h1, rfl⟩ := h
    obtain ⟨lam, h2, h3, h4⟩ := hq (label, nargs, nframe, frees) (by simp [CSmp.closures])
    simp only at h2 h3 h4
    exact .clo hu h2 h3 h4 (by simp only [h4]; exact hs _ (List.mem_of_getElem? h2)) (getRefs_sane he hc h1).2

theorem evalCs_sane {u : Nat} {code : List Lam} (hu : units[u]? = some code) (hs : SmallFrames code) {caps : List MVal}
    (hc : ∀ v ∈ caps, Sane units v) {env : CEnv MCode} (he : ∀ q ∈ env, Sane units q.2) {w : CWorld MCode W} (hw : SaneWorld units w) :
    ∀ {es : List CSmp}, (∀ q ∈ es.flatMap CSmp.closures, GoodClosure code q) → ∀ {vs : List MVal},
      evalCs u caps env w es = some vs → ∀ v ∈ vs, Sane units v
  | [], _, vs, h => by simp only [evalCs, Option.some.injEq] at h; subst h; simp
  | e :: es, hq, vs, h => by
    rw [evalCs] at h
    split at h
    · rename_i v us h1 h2
      cases h
      intro x hx
      rcases List.mem_cons.mp hx with rfl | hx
      · exact evalC_sane hu hs hc he hw (fun q hq' => hq q (by simp [hq'])) h1
      · exact evalCs_sane hu hs hc he hw (fun q hq' => hq q (List.mem_flatMap.mpr (by
          obtain ⟨a, ha, hb⟩ := List.mem_flatMap.mp hq'
          exact ⟨a, by simp [ha], hb⟩))) h2 x hx
    · simp at h

/-- what a block ends with is right; the values saved at a call are those of some call in the block -/
def ExitOk (units : List (List Lam)) (calls : List (Nat × List Spec.Lang.Sym)) : Exit → Prop
  | .ret v => Sane units v
  | .tail g vs => Sane units g ∧ ∀ v ∈ vs, Sane units v
  | .call l us g vs => (∃ live, (l, live) ∈ calls ∧ us.length = live.length) ∧ (∀ v ∈ us, Sane units v) ∧ Sane units g ∧
      ∀ v ∈ vs, Sane units v

theorem ExitOk.more {calls calls' : List (Nat × List Spec.Lang.Sym)} (hc : ∀ q ∈ calls, q ∈ calls') {e : Exit} (h : ExitOk units calls e) :
    ExitOk units calls' e := by
  cases e with
  | ret v => exact h
  | tail g vs => exact h
  | call l us g vs =>
    obtain ⟨⟨live, h1, h2⟩, h3⟩ := h
    exact ⟨⟨live, hc _ h1, h2⟩, h3⟩

theorem outcome_sane {O : Outside W} (hO : KeepsSane O) {u : Nat} {code : List Lam} (hu : units[u]? = some code) (hs : SmallFrames code)
    {caps : List MVal} (hc : ∀ v ∈ caps, Sane units v) : ∀ (k : CStm), (∀ q ∈ k.closures, GoodClosure code q) →
    ∀ (env : CEnv MCode) (w : CWorld MCode W), (∀ q ∈ env, Sane units q.2) → SaneWorld units w → ∀ {w' e},
      outcome O u caps k env w = some (w', e) → SaneWorld units w' ∧ ExitOk units k.calls e := by
  intro k
  induction k with
  | ret e =>
    intro hq env w he hw w' x h
    simp only [outcome, Option.map_eq_some_iff] at h
    obtain ⟨v, h1, h2⟩ := h
    cases h2
    exact ⟨hw, evalC_sane hu hs hc he hw hq h1⟩
  | tail f args =>
    intro hq env w he hw w' x h
    rw [outcome] at h
    split at h
    · rename_i g vs h1 h2
      cases h
      exact ⟨hw, evalC_sane hu hs hc he hw (fun q h => hq q (List.mem_append_left _ h)) h1,
        evalCs_sane hu hs hc he hw (fun q h => hq q (List.mem_append_right _ h)) h2⟩
    · simp at h
  | call f args label live =>
    intro hq env w he hw w' x h
    rw [outcome] at h
    split at h
    · rename_i us hus
      split at h
      · rename_i g vs h1 h2
        cases h
        obtain ⟨h3, h4⟩ := getRefs_sane he (by simp) hus
        exact ⟨hw, ⟨live, by simp [CStm.calls], by simpa using h3⟩, h4,
          evalC_sane hu hs hc he hw (fun q h => hq q (List.mem_append_left _ h)) h1,
          evalCs_sane hu hs hc he hw (fun q h => hq q (List.mem_append_right _ h)) h2⟩
      · simp at h
    · simp at h
  | bind x e k ih =>
    intro hq env w he hw w' y h
    rw [outcome] at h
    split at h
    · rename_i v h1
      have hv := evalC_sane hu hs hc he hw (fun q h => hq q (List.mem_append_left _ h)) h1
      refine ih (fun q h => hq q (List.mem_append_right _ h)) _ _ (fun q h => ?_) hw h
      rcases List.mem_cons.mp h with rfl | h
      · exact hv
      · exact he q h
    · simp at h
  | prim x p args k ih =>
    intro hq env w he hw w' y h
    rw [outcome] at h
    split at h
    · rename_i vs h1
      have hv := evalCs_sane hu hs hc he hw (fun q h => hq q (List.mem_append_left _ h)) h1
      split at h
      · rename_i v w2 h2
        obtain ⟨h3, h4⟩ := cprim_sane hO hv hw h2
        refine ih (fun q h => hq q (List.mem_append_right _ h)) _ _ (fun q h => ?_) h4 h
        rcases List.mem_cons.mp h with rfl | h
        · exact h3
        · exact he q h
      · simp at h
    · simp at h
  | seq e k ih =>
    intro hq env w he hw w' y h
    rw [outcome] at h
    split at h
    · exact ih (fun q h => hq q (List.mem_append_right _ h)) _ _ he hw h
    · simp at h
  | ite e a b iha ihb =>
    intro hq env w he hw w' y h
    rw [outcome] at h
    split at h
    · split at h
      · obtain ⟨h1, h2⟩ := iha (fun q h => hq q (List.mem_append_left _ (List.mem_append_right _ h))) _ _ he hw h
        exact ⟨h1, h2.more fun q h => List.mem_append_left _ h⟩
      · obtain ⟨h1, h2⟩ := ihb (fun q h => hq q (List.mem_append_right _ h)) _ _ he hw h
        exact ⟨h1, h2.more fun q h => List.mem_append_right _ h⟩
    · simp at h

end

end Cora.Compile
