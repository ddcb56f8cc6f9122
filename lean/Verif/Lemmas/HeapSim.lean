import Verif.Lemmas.HeapBlock
import Verif.Lemmas.SegRun
/-
Runs with the heap do what runs on segments do.
-/
open Spec.Lang Spec.Compiled
namespace Cora.Compile
open GC
variable {W : Type} [Layout]

/-! ### frames -/

section
variable {units : List (List Lam)}

omit [Layout] in
theorem Needs.unique {fn : Fn} {label : Nat} {v : MVal} {size size' k k' : Nat} (h : Needs units fn label v size k)
    (h' : Needs units fn label v size' k') : k = k' := by
  cases h with
  | code a1 a2 a3 a4 a5 a6 =>
    cases h' with
    | code b1 b2 b3 b4 b5 b6 =>
      rw [a1] at b1; cases b1
      rw [a2] at b2; cases b2
      rcases a5 with ⟨e1, e2⟩ | ⟨i, c, e1, e2, e3⟩ <;> rcases b5 with ⟨f1, f2⟩ | ⟨j, d, f1, f2, f3⟩
      · omega
      · omega
      · omega
      · obtain rfl : i = j := by omega
        rw [e2] at f2; cases f2
        omega
  | prim a1 => cases h' with | prim b1 => rw [a1] at b1; cases b1; rfl
  | native => cases h' with | native => rfl
  | curry a1 a2 => cases h' with | curry b1 b2 => rw [a2] at b2; cases b2; rfl

omit [Layout] in
theorem Stk.frames {strict : Prop} {B : Base} (hB : B.Ok) {mem st : Nat → MVal} {data : List Nat} {L M : List MFrame}
    (h : Stk strict units B mem st data L M) : data.Nodup → ∀ f ∈ L, f.fn ≠ .exit →
      ∃ b ∈ data, InSeg b f ∧ ∀ r, data = b :: r → f.sp ≤ limHead L := by
  induction h with
  | base =>
    intro _ f hf hne
    rw [List.mem_singleton] at hf
    subst hf
    exact absurd hB.1 hne
  | @cons b r data' f g fs gs h1 h2 h3 h4 h5 ih =>
    intro hd f' hf hne
    rcases List.mem_cons.mp hf with rfl | hf
    · exact ⟨b, by simp, h1, fun _ _ => by simp only [limHead]; rw [lim_sp hne]; exact Nat.le_refl _⟩
    · obtain ⟨b', hb', hin, hl⟩ := ih (Stk.nodup hd h3) f' hf hne
      rcases h3 with ⟨rfl, hx⟩ | ⟨hs, _⟩
      · refine ⟨b', hb', hin, fun r' hr => ?_⟩
        have := hl r' hr
        simp only [limHead]
        rw [lim_sp h2.noExit.1]
        have := h1.2.1
        omega
      · refine ⟨b', List.mem_cons_of_mem _ (hs.subset hb'), hin, fun r' hr => ?_⟩
        injection hr with hr _
        subst hr
        exact absurd (hs.subset hb') (List.nodup_cons.mp hd).1

/-- the registers of pending frames are not free -/
theorem pend_frames {strict : Prop} {B : Base} (hB : B.Ok) {x y : Nat} {s : Mach W} {t : SMach W} (h : SPend strict units B x y s t)
    {L : List MFrame} (hL : t.frames = L ++ B.F0) {f : MFrame} (hf : f ∈ L) (hne : f.fn ≠ .exit) {p : Nat} (h1 : f.bp ≤ p) (h2 : p < f.sp) :
    (∃ b ∈ t.heap, b ≤ p ∧ p < b + 256) ∧ ¬ (x ≤ p ∧ p < t.begin_ + 256) := by
  obtain ⟨hc, L', M, data', hL', hM, hx, hx', hu, hy, hst⟩ := h
  obtain rfl : L = L' := List.append_cancel_right (hL.symm.trans hL')
  have hthere := common_there hB hc
  obtain ⟨_, _, ⟨r, hr⟩, _, _, c6, c7, _⟩ := hc
  rw [hr] at c6 hu hthere
  simp only [List.tail_cons] at hu
  obtain ⟨b, hb, hin, hl⟩ := hst.frames hB (Stk.nodup c6 hu) f hf hne
  have hbd : b ∈ t.begin_ :: r := by
    rcases hu with ⟨rfl, _⟩ | ⟨h, _⟩
    · exact hb
    · exact List.mem_cons_of_mem _ (h.subset hb)
  obtain ⟨i1, i2, i3⟩ := hin
  refine ⟨⟨b, hthere b hbd, by omega, by omega⟩, ?_⟩
  rintro ⟨h3, h4⟩
  have := apart_eq c7 (hthere b hbd) (hthere t.begin_ (by simp)) (p := p) (by omega) (by omega) (by omega) h4
  subst this
  rcases hu with ⟨rfl, hx⟩ | ⟨h, _⟩
  · have := hl r rfl
    omega
  · exact absurd (h.subset hb) (List.nodup_cons.mp c6).1

end

/-! ### states -/

/-- the same stack -/
def HSame (h : HMach W) (t : SMach W) : Prop :=
  t.ctx = h.ctx ∧ t.frames = h.frames ∧ t.begin_ = h.begin_ ∧ t.end_ = h.end_ ∧ t.data = h.data ∧ t.heap = h.segs

/-- the words in the registers of a frame that are used are values -/
def HRegs (units : List (List Lam)) (cell : SlotId → Cell) (held : List SlotId) (hmem : Nat → Word) (mem : Nat → MVal) (f : MFrame) : Prop :=
  ∀ size k, f.sp = f.bp + size → Needs units f.fn f.label (mem f.bp) size k → ∀ i < k, Owns cell held (hmem (f.bp + i)) (mem (f.bp + i))

/-- what callers have: their registers, the objects there were, and those that they go on to use, which are in their registers -/
structure Before where
  B : Base
  hmem : Nat → Word
  cell : SlotId → Cell
  Kept : SlotId → Prop
  there : ∀ x, Kept x → ∃ f ∈ B.F0, ∃ p, f.bp ≤ p ∧ p < f.sp ∧ B.Prot p ∧ hmem p = .ptr x

/-- what always holds -/
structure HInv (units : List (List Lam)) (P : Before) (h : HMach W) (t : SMach W) (held : List SlotId) : Prop where
  same : HSame h t
  ok : HeapOk h.heap held
  world : ShowsWorld h.heap t.world
  frames : ∀ L, t.frames = L ++ P.B.F0 → ∀ f ∈ L, f.fn ≠ .exit → HRegs units h.heap.cell held h.mem t.mem f
  prot : ∀ p, P.B.Prot p → h.mem p = P.hmem p
  keeps : ∀ x, P.Kept x → x ∈ held
  kept : ∀ w v, Shows P.cell w v → (∀ x, w.kid = some x → P.Kept x) → Shows h.heap.cell w v

/-- a function runs -/
def HActive (units : List (List Lam)) (P : Before) (h : HMach W) (t : SMach W) (held : List SlotId) : Prop :=
  HInv units P h t held ∧ HRegs units h.heap.cell held h.mem t.mem h.ctx ∧ (h.ctx.label ≠ 0 → Owns h.heap.cell held h.res t.res)

/-- the run has ended -/
def HDone (units : List (List Lam)) (P : Before) (h : HMach W) (t : SMach W) (held : List SlotId) : Prop :=
  HInv units P h t held ∧ Owns h.heap.cell held h.res t.res

/-- an action is pending -/
def HPAct (units : List (List Lam)) (P : Before) (h : HMach W) (t : SMach W) (held : List SlotId) : HAct → MAct → Prop
  | .ret w, .ret v => HInv units P h t held ∧ Owns h.heap.cell held w v
  | .call f args, .call g vs => HInv units P h t held ∧ Owns h.heap.cell held f g ∧ OwnsAll h.heap.cell held args vs
  | _, _ => False

section
variable {units : List (List Lam)} {P : Before} {h : HMach W} {t : SMach W} {held : List SlotId}

theorem HRegs.onward {hp hp' : Heap W} {held' : List SlotId} (ho : Onward hp held hp' held') {hmem : Nat → Word} {mem : Nat → MVal}
    {f : MFrame} (hr : HRegs units hp.cell held hmem mem f) : HRegs units hp'.cell held' hmem mem f :=
  fun size k hs hn i hi => ho.has (hr size k hs hn i hi)

omit [Layout] in
theorem HRegs.cong {cell : SlotId → Cell} {hmem hmem' : Nat → Word} {mem mem' : Nat → MVal} {f : MFrame}
    (hr : HRegs units cell held hmem mem f) (h1 : ∀ p, f.bp ≤ p → p < f.sp → hmem' p = hmem p)
    (h2 : ∀ p, f.bp ≤ p → p < f.sp → mem' p = mem p) : HRegs units cell held hmem' mem' f := by
  intro size k hs hn i hi
  have hle := hn.le
  rw [h1 _ (by omega) (by omega), h2 _ (by omega) (by omega)]
  rw [h2 _ (by omega) (by omega)] at hn
  exact hr size k hs hn i hi

theorem HInv.onward (hi : HInv units P h t held) {hp' : Heap W} {held' : List SlotId} (ho : Onward h.heap held hp' held')
    {w1 : CWorld MCode W} (hw : ShowsWorld hp' w1) : HInv units P { h with heap := hp' } { t with world := w1 } held' :=
  ⟨hi.same, ho.coll, hw, fun L hL f hf hne => (hi.frames L hL f hf hne).onward ho, hi.prot, fun x hx => ho.more x (hi.keeps x hx),
    fun w v hs hk => ho.keep w v (hi.kept w v hs hk) fun x hx => hi.keeps x (hk x hx)⟩

omit [Layout] in
theorem storeW_out {mem : Nat → Word} {a p : Nat} {ws : List Word} (h : p < a ∨ a + ws.length ≤ p) : storeW mem a ws p = mem p := by
  unfold storeW
  rw [if_neg (by omega)]

omit [Layout] in
theorem storeW_in {mem : Nat → Word} {a i : Nat} {ws : List Word} (h : i < ws.length) : storeW mem a ws (a + i) = ws[i] := by
  unfold storeW
  rw [if_pos (by omega), show a + i - a = i by omega, List.getD_eq_getElem?_getD, List.getElem?_eq_getElem h, Option.getD_some]

omit [Layout] in
/-- what was written is there -/
theorem store_owns {cell : SlotId → Cell} {hmem : Nat → Word} {mem : Nat → MVal} {a : Nat} {ws : List Word} {vs : List MVal}
    (h : OwnsAll cell held ws vs) {i : Nat} (hi : i < vs.length) : Owns cell held (storeW hmem a ws (a + i)) (storeAt mem a vs (a + i)) := by
  have hl := h.length
  rw [storeW_in (by omega), storeAt_in hi]
  exact h.get (List.getElem?_eq_getElem _) (List.getElem?_eq_getElem _)

/-- writing free registers -/
theorem HInv.write (hB : P.B.Ok) (hi : HInv units P h t held) {strict : Prop} {x y : Nat} {s : Mach W} (hp : SPend strict units P.B x y s t)
    {a : Nat} {ws : List Word} {vs : List MVal} (hl : ws.length = vs.length)
    (hout : ∀ p, (∃ b ∈ t.heap, b ≤ p ∧ p < b + 256) → ¬ (x ≤ p ∧ p < t.begin_ + 256) → p < a ∨ a + ws.length ≤ p) :
    HInv units P { h with mem := storeW h.mem a ws } { t with mem := storeAt t.mem a vs } held := by
  refine ⟨hi.same, hi.ok, hi.world, fun L hL f hf hne => (hi.frames L hL f hf hne).cong ?_ ?_, fun p hpp => ?_, hi.keeps, hi.kept⟩
  · intro p a1 a2
    obtain ⟨q1, q2⟩ := pend_frames hB hp hL hf hne a1 a2
    exact storeW_out (hout p q1 q2)
  · intro p a1 a2
    obtain ⟨q1, q2⟩ := pend_frames hB hp hL hf hne a1 a2
    exact storeAt_out (by rw [← hl]; exact hout p q1 q2)
  · have h1 : ¬ (x ≤ p ∧ p < t.begin_ + 256) := fun hh => pend_free hB hp hh.1 hh.2 hpp
    have h2 : ∃ b ∈ t.heap, b ≤ p ∧ p < b + 256 := by
      obtain ⟨⟨b, hb, hb'⟩, _⟩ := hpp
      obtain ⟨_, _, _, _, ⟨new, _, hh⟩, _⟩ := hp.1
      exact ⟨b, by rw [hh]; simp [hb], hb'⟩
    show storeW h.mem a ws p = _
    rw [storeW_out (hout p h2 h1), hi.prot p hpp]

omit [Layout] in
theorem shows_fn {cell : SlotId → Cell} {w : Word} {f : MVal} {n : Nat} (hs : Shows cell w f) (hn : f.arity = some n) :
    ∃ data, cellOf cell w = some (.fn (fnOf f) (nframeOf f) n data) := by
  cases hs with
  | clo e => simp only [CVal.arity, Option.some.injEq] at hn; subst hn; exact ⟨_, by simp only [cellOf, e]; rfl⟩
  | prim hp e =>
    simp only [CVal.arity, hp, Option.some.injEq] at hn; subst hn
    exact ⟨[], by simp only [cellOf, e, fnOf, nframeOf, hp, Option.getD_some]⟩
  | native e => simp only [CVal.arity, Option.some.injEq] at hn; subst hn; exact ⟨_, by simp only [cellOf, e]; rfl⟩
  | pap ha e =>
    simp only [CVal.arity, ha, Option.map_some, Option.some.injEq] at hn; subst hn
    exact ⟨_, by simp only [cellOf, e]; rfl⟩
  | _ => simp [CVal.arity] at hn

/-! ### steps -/

/-- a cycle starts -/
theorem collect_sim (hi : HInv units P h t held) {gc : St} (hph : h.heap.gc.phase = .none) (hm : gcMarkRoot h.heap.gc h.roots = some gc)
    {L : List MFrame} (hL : t.frames = L ++ P.B.F0) :
    ∃ held', HInv units P { h with heap := { h.heap with gc := gc } } t held' ∧
      ∀ w, Holds held w → w.kid ∈ h.roots → Holds held' w := by
  classical
  obtain ⟨s1, s2, s3, s4, s5, s6⟩ := hi.same
  have hmem : ∀ x, x ∈ held.filter (fun x => decide (some x ∈ h.roots)) ↔ x ∈ held ∧ some x ∈ h.roots := by
    intro x; simp [List.mem_filter]
  have hhold : ∀ w, Holds held w → w.kid ∈ h.roots → Holds (held.filter (fun x => decide (some x ∈ h.roots))) w := by
    intro w hw hr p hp
    rw [hmem]
    rw [hp] at hr
    exact ⟨hw p hp, hr⟩
  have hframe : ∀ f ∈ h.frames, ∀ p, f.bp ≤ p → p < f.sp → (h.mem p).kid ∈ h.roots := by
    intro f hf p h1 h2
    unfold HMach.roots
    refine List.mem_map_of_mem (List.mem_append_right _ (List.mem_flatMap.mpr ⟨f, hf, ?_⟩))
    unfold regsOf readW
    exact List.mem_map.mpr ⟨p - f.bp, by rw [List.mem_range]; omega, by rw [show f.bp + (p - f.bp) = p by omega]⟩
  refine ⟨_, ⟨hi.same, start_later hi.ok hph hm (fun x hx => (hmem x).mp hx) fun q hq => hhold _ (hi.ok.globals q hq) ?_, hi.world,
    fun L' hL' f hf hne size k hs hn i hik => ?_, hi.prot, fun x hx => ?_, hi.kept⟩, hhold⟩
  · unfold HMach.roots
    refine List.mem_map_of_mem ?_
    simp only [List.mem_append, List.mem_map]
    exact .inl (.inl (.inl ⟨q, hq, rfl⟩))
  · have := hi.frames L' hL' f hf hne size k hs hn i hik
    have hle := hn.le
    exact ⟨this.1, hhold _ this.2 (hframe f (by rw [← s2, hL']; simp [hf]) _ (by omega) (by omega))⟩
  · obtain ⟨f, hf, p, h1, h2, h3, h4⟩ := P.there x hx
    rw [hmem]
    refine ⟨hi.keeps x hx, ?_⟩
    have := hframe f (by rw [← s2, hL]; simp [hf]) p h1 h2
    rw [hi.prot p h3, h4] at this
    exact this

/-- the current frame and the result are roots -/
theorem roots_ctx {p : Nat} (h1 : h.ctx.bp ≤ p) (h2 : p < h.ctx.sp) : (h.mem p).kid ∈ h.roots := by
  unfold HMach.roots
  refine List.mem_map_of_mem ?_
  simp only [List.mem_append]
  refine .inl (.inl (.inr ?_))
  unfold regsOf readW
  exact List.mem_map.mpr ⟨p - h.ctx.bp, by rw [List.mem_range]; omega, by rw [show h.ctx.bp + (p - h.ctx.bp) = p by omega]⟩

theorem roots_res : h.res.kid ∈ h.roots := by
  unfold HMach.roots
  refine List.mem_map_of_mem ?_
  simp

theorem ret_sim (hi : HInv units P h t held) {w : Word} {v : MVal} (hw : Owns h.heap.cell held w v) {h1 : HMach W} {t1 : SMach W}
    (hh : h.ret w = some h1) (ht : t.ret v = some t1) :
    HInv units P h1 t1 held ∧ Owns h1.heap.cell held h1.res t1.res ∧ ∃ f, t.frames = f :: t1.frames ∧ t1.ctx = f ∧ h1.heap = h.heap ∧
      h1.mem = h.mem ∧ t1.mem = t.mem := by
  obtain ⟨s1, s2, s3, s4, s5, s6⟩ := hi.same
  unfold HMach.ret at hh
  unfold SMach.ret at ht
  rw [s2] at ht
  cases hf : h.frames with
  | nil => rw [hf] at hh; simp at hh
  | cons f fs =>
    rw [hf] at hh ht
    simp only at hh ht
    have hframes : ∀ L, fs = L ++ P.B.F0 → ∀ g ∈ L, g.fn ≠ .exit → HRegs units h.heap.cell held h.mem t.mem g := by
      intro L hL g hg
      exact hi.frames (f :: L) (by rw [s2, hf, hL]; rfl) g (by simp [hg])
    rw [s3, s4] at ht
    split at hh
    · rename_i hc
      rw [if_pos hc] at ht
      unfold HMach.dropSegment at hh
      unfold SMach.dropSegment at ht
      rw [s5] at ht
      cases hd : h.data with
      | nil => simp [hd] at hh
      | cons top r =>
        cases r with
        | nil => simp [hd] at hh
        | cons b r =>
          simp only [hd] at hh ht
          split at hh
          · split at hh
            · rename_i c1 c2
              rw [if_pos c1, if_pos c2] at ht
              cases hh; cases ht
              exact ⟨⟨⟨rfl, rfl, rfl, rfl, rfl, by simp only [s6]⟩, hi.ok, hi.world, hframes, hi.prot, hi.keeps, hi.kept⟩, hw,
                f, by rw [s2, hf], rfl, rfl, rfl, rfl⟩
            · simp at hh
          · simp at hh
    · rename_i hc
      rw [if_neg hc] at ht
      cases hh; cases ht
      exact ⟨⟨⟨rfl, rfl, rfl, rfl, s5, s6⟩, hi.ok, hi.world, hframes, hi.prot, hi.keeps, hi.kept⟩, hw, f, by rw [s2, hf], rfl, rfl, rfl, rfl⟩

theorem enter_heap (hB : P.B.Ok) (hi : HInv units P h t held) {strict : Prop} {s : Mach W} (hp : SPend strict units P.B t.ctx.sp s.ctx.sp s t)
    {malloc : List Nat → Nat} (hm : Fresh malloc) {f : MVal} (hf : Sane units f) {vs : List MVal} (hn : f.arity = some vs.length)
    {w : Word} {ws : List Word} (hw : Owns h.heap.cell held w f) (hws : OwnsAll h.heap.cell held ws vs) {h1 : HMach W} {t1 : SMach W}
    (hh : h.enter malloc (fnOf f) (nframeOf f) w ws = some h1) (ht : t.enter malloc f vs = some t1) : HActive units P h1 t1 held := by
  obtain ⟨hn1, hn2⟩ := sane_frame hf hn
  have hl := hws.length
  obtain ⟨s1, s2, s3, s4, s5, s6⟩ := hi.same
  -- the frame
  have hregs : ∀ (a : Nat) (hmem : Nat → Word) (mem : Nat → MVal), HRegs units h.heap.cell held (storeW hmem a (w :: ws)) (storeAt mem a (f :: vs))
      ⟨fnOf f, 0, a, a + nframeOf f⟩ := by
    intro a hmem mem size k hs hk i hik
    have he := needs_enter hf hn
    simp only [storeAt_head] at hk
    have := he.unique hk
    exact store_owns (.cons hw hws) (by simp only [List.length_cons]; omega)
  simp only [HMach.enter, HMach.alloc, Option.bind_eq_bind] at hh
  simp only [SMach.enter, SMach.alloc, Option.bind_eq_bind] at ht
  rw [if_neg (by omega)] at hh ht
  rw [s1, s4] at ht
  have hbeg := hp.2
  obtain ⟨_, _, _, _, _, hx, hx', _⟩ := hbeg
  have hend := hp.1.2.2.2.1
  by_cases hfit : h.ctx.sp + nframeOf f < h.end_
  · rw [if_pos hfit] at hh ht
    simp only [Option.bind_some, SMach.store, HMach.store] at hh ht
    split at hh
    · split at ht
      · cases hh; cases ht
        have := hi.write hB hp (a := h.ctx.sp) (ws := w :: ws) (vs := f :: vs) (by simp [hl]) (fun p _ hpp => by
          rw [s1] at hpp; simp only [List.length_cons]; omega)
        exact ⟨⟨⟨rfl, s2, s3, rfl, s5, s6⟩, this.ok, this.world, this.frames, this.prot, this.keeps, this.kept⟩, hregs _ _ _, fun h => absurd rfl h⟩
      · simp at ht
    · simp at hh
  · rw [if_neg hfit, if_pos hn2] at hh ht
    simp only [Option.bind_some, SMach.store, HMach.store, SMach.newSegment, HMach.newSegment, s6] at hh ht
    split at hh
    · split at ht
      · cases hh; cases ht
        have := hi.write hB hp (a := malloc h.segs) (ws := w :: ws) (vs := f :: vs) (by simp [hl]) (fun p hpp _ => by
          obtain ⟨b, hb, hb1, hb2⟩ := hpp
          have := hm t.heap b hb
          rw [s6] at this
          unfold Apart at this
          simp only [List.length_cons]
          omega)
        exact ⟨⟨⟨rfl, s2, rfl, rfl, by simp only [s5], rfl⟩, this.ok, this.world, this.frames, this.prot, this.keeps, this.kept⟩, hregs _ _ _,
          fun h => absurd rfl h⟩
      · simp at ht
    · simp at hh

theorem loads_later {hp : Heap W} : ∀ {ws : List Word} {held : List SlotId}, HeapOk hp held → ∀ {x : SlotId}, x ∈ held → (∀ w ∈ ws, w ∈ (hp.cell x).words) →
    ∃ held', Onward hp held hp held' ∧ ∀ w ∈ ws, Holds held' w
  | [], held, hcol, x, hx, h => ⟨held, .refl hcol, by simp⟩
  | w :: ws, held, hcol, x, hx, h => by
    obtain ⟨held1, a1, a2⟩ := load_later hcol hx (h w (by simp))
    obtain ⟨held2, b1, b2⟩ := loads_later a1.coll (a1.more x hx) (ws := ws) fun w hw => h w (by simp [hw])
    refine ⟨held2, a1.trans b1, fun u hu => ?_⟩
    rcases List.mem_cons.mp hu with rfl | hu
    · exact a2.mono b1.more
    · exact b2 u hu

omit [Layout] in
theorem regs_owns {cell : SlotId → Cell} {hmem : Nat → Word} {mem : Nat → MVal} {a : Nat} : ∀ {n : Nat},
    (∀ i < n, Owns cell held (hmem (a + i)) (mem (a + i))) → OwnsAll cell held (readW hmem a n) (readAt mem a n) := by
  intro n h
  refine hasAll_of (by simp [readW, readAt]) fun i w v hw hv => ?_
  simp only [readW, readAt, List.getElem?_map, Option.map_eq_some_iff] at hw hv
  obtain ⟨j, hj, rfl⟩ := hw
  obtain ⟨j', hj', rfl⟩ := hv
  rw [hj] at hj'; cases hj'
  obtain ⟨hlt, he⟩ := List.getElem?_eq_some_iff.mp hj
  simp only [List.getElem_range, List.length_range] at he hlt
  subst he
  exact h i hlt

theorem curry_heap (hB : P.B.Ok) {strict : Prop} {s : Mach W} (ha : Active strict units P.B s t) (hh : HActive units P h t held)
    (hfn : t.ctx.fn = .curry) {h1 : HMach W} (h1e : hcurryBlock h = some h1) {tv : Mach W} (ht : curryBlock t.view = some tv) :
    ∃ held', HActive units P h1 (t.put tv) held' := by
  obtain ⟨hi, hr, _⟩ := hh
  have s1 := hi.same.1
  obtain ⟨hp, hin, ⟨size, k, a1, a2, a3, a4, a5, a6⟩, hres⟩ := ha
  have hregs := hr size k (by rw [← s1]; exact a3) (by rw [← s1]; exact a5)
  have h0 := hregs 0 a5.le.1
  rw [Nat.add_zero] at h0
  rw [hfn] at a5
  have hmv : t.mem h.ctx.bp = t.mem t.ctx.bp := by rw [s1]
  generalize hv : t.mem t.ctx.bp = v at a5
  rw [hmv, hv] at h0
  cases a5 with
  | @curry f got n _ b1 b2 =>
    have hfrm := sane_frame b1 b2
    simp only [nframeOf] at hfrm
    have hsf : Sane units f ∧ (∀ v ∈ got, Sane units v) ∧ ∃ m, f.arity = some m ∧ got.length < m := by
      cases b1 with | pap p1 p2 p3 p4 p5 => exact ⟨p1, p2, _, p3, p5⟩
    obtain ⟨hsf, hsg, m, hm, hgl⟩ := hsf
    have hnm : n = m - got.length := by
      simp only [CVal.arity, hm, Option.map_some, Option.some.injEq] at b2
      exact b2.symm
    obtain ⟨h01, h02⟩ := h0
    generalize hw0 : h.mem h.ctx.bp = w0 at h01 h02
    cases h01 with
    | @pap x _ n' _ w ws c1 c2 c3 c4 c5 =>
      rw [hm] at c1; cases c1
      obtain ⟨data, hdata⟩ := shows_fn c3 hm
      have hx : x ∈ held := h02 x rfl
      have hc0 : cellOf h.heap.cell (.ptr x) = some (.fn .curry (nframeOf f) (m - got.length) (w :: ws)) := by simp only [cellOf, c2]
      simp only [hcurryBlock, hw0, hc0, hdata, ← hnm, Option.some.injEq] at h1e
      simp only [curryBlock, SMach.view, hv, b2, Option.some.injEq] at ht
      subst h1e ht
      obtain ⟨held', o1, o2⟩ := loads_later hi.ok hx (ws := w :: ws) (by rw [c2]; intro u hu; exact hu)
      have hi' := hi.onward o1 hi.world
      have hgot : OwnsAll h.heap.cell held' ws got := hasAll_of c4 fun i u v hu hv =>
        ⟨c5 i u v hu hv, o2 u (List.mem_cons_of_mem _ (List.mem_of_getElem? hu))⟩
      have hargs : OwnsAll h.heap.cell held' (readW h.mem (h.ctx.bp + 1) n) (readAt t.mem (t.ctx.bp + 1) n) := by
        rw [s1]
        refine regs_owns fun i hi => ?_
        rw [show h.ctx.bp + 1 + i = h.ctx.bp + (i + 1) by omega]
        exact o1.has (hregs (i + 1) (by omega))
      have hall : ∀ {ws vs ws' vs'}, OwnsAll h.heap.cell held' ws vs → OwnsAll h.heap.cell held' ws' vs' → OwnsAll h.heap.cell held' (ws ++ ws') (vs ++ vs') := by
        intro ws vs ws' vs' q1 q2
        induction q1 with
        | nil => exact q2
        | cons q _ ih => exact .cons q ih
      have hstore : OwnsAll h.heap.cell held' (w :: ws ++ readW h.mem (h.ctx.bp + 1) n) (f :: got ++ readAt t.mem (t.ctx.bp + 1) n) :=
        hall (.cons ⟨c3, o2 w (by simp)⟩ hgot) hargs
      have hlen : (w :: ws ++ readW h.mem (h.ctx.bp + 1) n).length = m + 1 := by simp [readW]; omega
      obtain ⟨hin1, hin2, hin3⟩ := hin
      have hfm := sane_frame hsf hm
      have hbp : t.ctx.bp = h.ctx.bp := by rw [s1]
      have hwr := hi'.write hB hp (a := h.ctx.bp) hstore.length (fun p _ hpp => by
        have hpp' : ¬ (t.ctx.bp ≤ p ∧ p < t.begin_ + 256) := hpp
        rw [hlen]; omega)
      have hregs' : HRegs units h.heap.cell held' (storeW h.mem h.ctx.bp (w :: ws ++ readW h.mem (h.ctx.bp + 1) n))
          (storeAt t.mem h.ctx.bp (f :: got ++ readAt t.mem (t.ctx.bp + 1) n)) ⟨fnOf f, 0, h.ctx.bp, h.ctx.sp⟩ := by
        intro size k hs hk i hik
        have he := needs_enter hsf hm
        simp only [List.cons_append, storeAt_head] at hk
        have := he.unique hk
        exact store_owns hstore (by rw [← hstore.length, hlen]; omega)
      rw [← s1] at hwr hregs' ⊢
      exact ⟨held', ⟨⟨rfl, hwr.same.2⟩, hwr.ok, hwr.world, hwr.frames, hwr.prot, hwr.keeps, hwr.kept⟩, hregs', fun h => absurd rfl h⟩

/-! ### blocks -/

/-- variables, one by one -/
inductive Pairs (cell : SlotId → Cell) (held : List SlotId) : HEnv → CEnv MCode → Prop where
  | nil : Pairs cell held [] []
  | cons {x w v henv env} : Owns cell held w v → Pairs cell held henv env → Pairs cell held ((x, w) :: henv) ((x, v) :: env)

omit [Layout] in
theorem Pairs.env {cell : SlotId → Cell} {henv : HEnv} {env : CEnv MCode} (h : Pairs cell held henv env) : EnvOwns cell held henv env := by
  induction h with
  | nil => exact fun x => .inl ⟨rfl, rfl⟩
  | cons h1 _ ih => exact ih.cons _ h1

omit [Layout] in
theorem Pairs.append {cell : SlotId → Cell} {a b : HEnv} {c d : CEnv MCode} (h1 : Pairs cell held a c) (h2 : Pairs cell held b d) :
    Pairs cell held (a ++ b) (c ++ d) := by
  induction h1 with
  | nil => exact h2
  | cons h _ ih => exact .cons h ih

omit [Layout] in
theorem Pairs.reverse {cell : SlotId → Cell} {a : HEnv} {c : CEnv MCode} (h : Pairs cell held a c) : Pairs cell held a.reverse c.reverse := by
  induction h with
  | nil => exact .nil
  | cons h _ ih => simp only [List.reverse_cons]; exact ih.append (.cons h .nil)

omit [Layout] in
theorem pairs_zip {cell : SlotId → Cell} {ws : List Word} {vs : List MVal} (h : OwnsAll cell held ws vs) :
    ∀ xs : List Spec.Lang.Sym, Pairs cell held (xs.zip ws) (xs.zip vs) := by
  induction h with
  | nil => intro xs; simp only [List.zip_nil_right]; exact .nil
  | cons h _ ih =>
    intro xs
    cases xs with
    | nil => exact .nil
    | cons x xs => exact .cons h (ih xs)

/-- the block that runs next, and its variables -/
def Lam.Starts (lam : Lam) (h : HMach W) (body : CStm) (henv : HEnv) : Prop :=
  (h.ctx.label = 0 ∧ body = lam.body ∧ henv = (lam.params.zip (readW h.mem (h.ctx.bp + 1) lam.params.length)).reverse) ∨
  ∃ i c, h.ctx.label = i + 1 ∧ lam.conts[i]? = some c ∧ body = c.body ∧
    henv = (c.val, h.res) :: c.live.zip (readW h.mem (h.ctx.bp + 1) c.live.length)

/-- the block that runs, and its variables -/
theorem block_vars (O : Outside W) (HO : HOutside W) {strict : Prop} {s : Mach W} (ha : Active strict units P.B s t) (hh : HActive units P h t held)
    {u l : Nat} (hfn : t.ctx.fn = .code u l) {code : List Lam} {lam : Lam} (hu : units[u]? = some code) (hl : code[l]? = some lam) :
    ∃ body env henv, body ∈ lam.pieces ∧ (∀ q ∈ env, Sane units q.2) ∧ EnvOwns h.heap.cell held henv env ∧
      lam.block O u t.view = execC O u body env t.view ∧ (∀ h1 a, HBlock HO u lam h h1 a ↔ HExec HO u body henv h h1 a) ∧ lam.Starts h body henv := by
  obtain ⟨hi, hr, hres⟩ := hh
  obtain ⟨s1, s2, s3, s4, s5, s6⟩ := hi.same
  obtain ⟨hp, hin, ⟨size, k, a1, a2, a3, a4, a5, a6⟩, hsres⟩ := ha
  have hregs := hr size k (by rw [← s1]; exact a3) (by rw [← s1]; exact a5)
  rw [hfn] at a5
  cases a5 with
  | @code _ _ _ _ _ _ code' lam' b1 b2 b3 b4 b5 b6 =>
    rw [hu] at b1; cases b1
    rw [hl] at b2; cases b2
    have hargs : ∀ j, j + 1 = k → OwnsAll h.heap.cell held (readW h.mem (h.ctx.bp + 1) j) (readAt t.mem (t.ctx.bp + 1) j) := by
      intro j hj
      rw [s1]
      refine regs_owns fun i hi => ?_
      rw [show h.ctx.bp + 1 + i = h.ctx.bp + (i + 1) by omega]
      exact hregs (i + 1) (by omega)
    rcases b5 with ⟨hlab, rfl⟩ | ⟨i, c, hlab, hc, rfl⟩
    · obtain ⟨r1, r2⟩ := fr_regs a6
      refine ⟨lam.body, (lam.params.zip (readAt t.mem (t.ctx.bp + 1) lam.params.length)).reverse, _, by simp [Lam.pieces], ?_,
        (pairs_zip (hargs _ rfl) _).reverse.env, ?_, fun h1 a => ⟨fun hb => ?_, fun hx => .start (by rw [← s1]; exact hlab) hx⟩,
        .inl ⟨by rw [← s1]; exact hlab, rfl, rfl⟩⟩
      · intro q hq
        exact zip_sane r2 q (by simpa using hq)
      · simp only [Lam.block, SMach.view, hlab]
      · cases hb with
        | start _ hx => exact hx
        | cont hlab' => rw [s1] at hlab; omega
    · obtain ⟨r1, r2⟩ := fr_regs a6
      obtain ⟨q1, q2⟩ := hsres (by omega)
      refine ⟨c.body, (c.val, t.res) :: c.live.zip (readAt t.mem (t.ctx.bp + 1) c.live.length), _,
        by simp only [Lam.pieces, List.mem_cons, List.mem_map]; exact .inr ⟨c, List.mem_of_getElem? hc, rfl⟩, ?_, 
        (Pairs.cons (hres (by rw [← s1]; omega)) (pairs_zip (hargs _ rfl) _)).env, ?_,
        fun h1 a => ⟨fun hb => ?_, fun hx => .cont (by rw [← s1]; exact hlab) hc hx⟩,
        .inr ⟨i, c, by rw [← s1]; exact hlab, hc, rfl, rfl⟩⟩
      · intro q hq
        rcases List.mem_cons.mp hq with rfl | hq
        · rw [q1]; exact q2
        · exact zip_sane r2 q hq
      · simp only [Lam.block, SMach.view, hlab, hc]
      · cases hb with
        | start hlab' => rw [s1] at hlab; omega
        | cont hlab' hc' hx =>
          rw [s1, hlab'] at hlab
          obtain rfl := Nat.succ.inj hlab
          rw [hc] at hc'; cases hc'
          exact hx

theorem block_heap {O : Outside W} {HO : HOutside W} (hB : P.B.Ok) (hU : UnitsOk units) (hO : KeepsSane O) (hI : Implements HO O) {strict : Prop}
    {s : Mach W} (ha : Active strict units P.B s t) (hh : HActive units P h t held) {u l : Nat} (hfn : t.ctx.fn = .code u l)
    {code : List Lam} {lam : Lam} (hu : units[u]? = some code) (hl : code[l]? = some lam) {h1 : HMach W} {a : HAct}
    (hb : HBlock HO u lam h h1 a) {tv : Mach W} {m : MAct} (ht : lam.block O u t.view = some (tv, m)) :
    ∃ held', HPAct units P h1 (t.put tv) held' a m := by
  obtain ⟨body, env, henv, hbody, he, hpair, ht1, hx, _⟩ := block_vars O HO ha hh hfn hu hl
  have hx := (hx h1 a).mp hb
  obtain ⟨hi, hr, hres⟩ := hh
  obtain ⟨s1, s2, s3, s4, s5, s6⟩ := hi.same
  obtain ⟨hp, hin, ⟨size, k, a1, a2, a3, a4, a5, a6⟩, hsres⟩ := ha
  obtain ⟨c1, c2, _⟩ := hp.1
  have hregs := hr size k (by rw [← s1]; exact a3) (by rw [← s1]; exact a5)
  have h0 := hregs 0 a5.le.1
  rw [Nat.add_zero] at h0
  have hk0 := a5.le.1
  have hkk := a5
  rw [hfn] at a5
  cases a5 with
  | @code _ _ _ _ _ _ code' lam' b1 b2 b3 b4 b5 b6 =>
    rw [hu] at b1; cases b1
    rw [hl] at b2; cases b2
    have hsm := hU code (List.mem_of_getElem? hu)
    have hgood := hsm.2 lam (List.mem_of_getElem? hl)
    rw [ht1, execC_outcome, Option.map_eq_some_iff] at ht
    obtain ⟨⟨w', e⟩, ho, hafter⟩ := ht
    have hcap : capturedOf (t.view.stack t.view.ctx.bp) = capturedOf (t.mem h.ctx.bp) := by simp only [SMach.view, s1]
    rw [hcap] at ho
    obtain ⟨hw, hex⟩ := outcome_sane hO hu hsm.1 (by rw [← s1]; exact b6) body (hgood.2 body hbody) env t.view.world he (by show SaneWorld units t.world; rw [c1]; exact c2) ho
    obtain ⟨held', o1, o2, o3⟩ := exec_sim hI hx hi.ok hpair h0 hi.world ho
    have hi' := hi.onward o1 o2
    refine ⟨held', ?_⟩
    cases e with
    | ret v =>
      obtain ⟨w, rfl, e1, e2⟩ := o3
      cases hafter
      rw [e1]
      exact ⟨hi', e2⟩
    | tail g vs =>
      obtain ⟨f, ws, rfl, e1, e2, e3⟩ := o3
      cases hafter
      rw [e1]
      exact ⟨⟨⟨by simp only [SMach.put, SMach.view, s1], hi'.same.2⟩, hi'.ok, hi'.world, hi'.frames, hi'.prot, hi'.keeps, hi'.kept⟩, e2, e3⟩
    | call label us g vs =>
      obtain ⟨us', f, ws, rfl, e1, e2, e3, e4⟩ := o3
      cases hafter
      rw [e1]
      obtain ⟨⟨live, hlive, hlen⟩, hus, hg, hvs⟩ := hex
      obtain ⟨hl0, c, hc, rfl⟩ := hgood.1.linked body hbody label live hlive
      have hcs := b4 c (List.mem_of_getElem? hc)
      obtain ⟨hin1, hin2, hin3⟩ := hin
      have hbp : t.ctx.bp = h.ctx.bp := by rw [s1]
      have hl2 := e2.length
      have hwr := hi'.write hB (pend_world hp hw) (a := h.ctx.bp + 1) hl2 (fun p _ hpp => by
        have hpp' : ¬ (t.ctx.bp ≤ p ∧ p < t.begin_ + 256) := hpp
        omega)
      have hnew : HRegs units h1.heap.cell held' (storeW h.mem (h.ctx.bp + 1) us') (storeAt t.mem (h.ctx.bp + 1) us) { h.ctx with label := label } := by
        intro size' k' hs' hk' i hik
        have hneed : Needs units (.code u l) label (storeAt t.mem (h.ctx.bp + 1) us h.ctx.bp) size (us.length + 1) := by
          rw [storeAt_out (.inl (by omega))]
          exact .code hu hl b3 b4 (.inr ⟨label - 1, c, by omega, hc, by rw [hlen]⟩) (by rw [← s1]; exact b6)
        simp only [show h.ctx.fn = .code u l by rw [← s1]; exact hfn] at hk'
        have := hneed.unique hk'
        cases i with
        | zero =>
          simp only [Nat.add_zero]
          rw [storeW_out (.inl (by omega)), storeAt_out (.inl (by omega))]
          exact o1.has h0
        | succ i =>
          simp only
          rw [show h.ctx.bp + (i + 1) = h.ctx.bp + 1 + i by omega]
          exact store_owns e2 (by omega)
      have hframes : ∀ L, { t.ctx with label := label } :: t.frames = L ++ P.B.F0 → ∀ g ∈ L, g.fn ≠ .exit →
          HRegs units h1.heap.cell held' (storeW h.mem (h.ctx.bp + 1) us') (storeAt t.mem (t.ctx.bp + 1) us) g := by
        intro L hL g hg hne
        rw [hbp]
        cases L with
        | nil => simp at hg
        | cons f' L' =>
          rw [List.cons_append] at hL
          injection hL with q1 q2
          rcases List.mem_cons.mp hg with rfl | hg
          · rw [← q1, s1]; exact hnew
          · exact hwr.frames L' q2 g hg hne
      exact ⟨⟨⟨s1, by simp only [SMach.put, SMach.view, s1, s2], hi'.same.2.2⟩, hi'.ok, hi'.world, hframes, hwr.prot, hi'.keeps, hi'.kept⟩, e3, e4⟩

end

/-! ### runs -/

/-- a state between two blocks -/
def HState (units : List (List Lam)) (P : Before) (s : Mach W) (t : SMach W) (h : HMach W) (held : List SlotId) : Prop :=
  (SEnded units P.B s t ∧ HDone units P h t held) ∨ (Active True units P.B s t ∧ HActive units P h t held)

/-- what is to be shown of a run -/
def Good (O : Outside W) (units : List (List Lam)) (P : Before) (h : HMach W) (act : Option HAct) (h' : HMach W) : Prop :=
  ∀ (n : Nat) (s s' : Mach W) (t : SMach W) (held : List SlotId) (a : Option MAct),
    (match act, a with
      | none, none => HState units P s t h held
      | some ha, some ma => PAct True units P.B ma s t ∧ HPAct units P h t held ha ma
      | _, _ => False) →
    goX false O units n s a = some s' → ∃ t' held', SEnded units P.B s' t' ∧ HDone units P h' t' held'

section
variable {units : List (List Lam)} {P : Before} {O : Outside W} {HO : HOutside W} {malloc : List Nat → Nat}

/-- a function runs -/
theorem state_active (hB : P.B.Ok) {s : Mach W} {t : SMach W} {h : HMach W} {held : List SlotId} (hs : HState units P s t h held)
    (hfn : h.ctx.fn ≠ .exit) : t.ctx.fn = h.ctx.fn ∧ Active True units P.B s t ∧ HActive units P h t held := by
  rcases hs with ⟨h1, h2⟩ | ⟨h1, h2⟩
  · have := h2.1.same.1
    rw [h1.2.1] at this
    rw [← this] at hfn
    exact absurd hB.1 hfn
  · exact ⟨by rw [h2.1.same.1], h1, h2⟩

theorem heap_sound (hB : P.B.Ok) (hU : UnitsOk units) (hO : KeepsSane O) (hm : Fresh malloc) (hI : Implements HO O) {h h' : HMach W}
    {act : Option HAct} (hgo : HGo malloc HO units h act h') : Good O units P h act h' := by
  induction hgo with
  | @exit h hfn =>
    intro n s s' t held a hs hx
    cases a with
    | some _ => exact hs.elim
    | none =>
      rcases hs with ⟨h1, h2⟩ | ⟨h1, h2⟩
      · cases n with
        | zero => simp [goX] at hx
        | succ n =>
          have : s.ctx.fn = .exit := by rw [h1.2.2.1, hB.2.1]
          simp only [goX, this, Option.some.injEq] at hx
          subst hx
          exact ⟨t, held, h1, h2⟩
      · have := active_fn h1
        rw [h2.1.same.1] at this
        exact absurd hfn this
  | @collect h gc h' hph hmr _ ih =>
    intro n s s' t held a hs hx
    cases a with
    | some _ => exact hs.elim
    | none =>
      refine (?_ : ∃ held', HState units P s t _ held').elim fun held' hs' => ih n s s' t held' none hs' hx
      rcases hs with ⟨h1, h2⟩ | ⟨h1, h2⟩
      · obtain ⟨held', a1, a2⟩ := collect_sim h2.1 hph hmr (L := []) h1.2.2.2.1
        exact ⟨held', .inl ⟨h1, a1, h2.2.1, a2 _ h2.2.2 roots_res⟩⟩
      · obtain ⟨L, _, _, hL, _⟩ := h1.1.2
        obtain ⟨held', a1, a2⟩ := collect_sim h2.1 hph hmr hL
        refine ⟨held', .inr ⟨h1, a1, fun size k hsz hn i hi => ?_, fun hlab => ⟨(h2.2.2 hlab).1, a2 _ (h2.2.2 hlab).2 roots_res⟩⟩⟩
        have := h2.2.1 size k hsz hn i hi
        have hle := hn.le
        have hsz' : h.ctx.sp = h.ctx.bp + size := hsz
        exact ⟨this.1, a2 _ this.2 (roots_ctx (h := h) (p := h.ctx.bp + i) (by omega) (by omega))⟩
  | @code h u l code lam h1 a h' hfn hok hu hl hb _ ih =>
    intro n s s' t held act hs hx
    cases act with
    | some _ => exact hs.elim
    | none =>
      obtain ⟨hf, hact, hh⟩ := state_active hB hs (by rw [hfn]; simp)
      rw [hfn] at hf
      obtain ⟨code', lam', q1, q2, q3, q4⟩ := block_sim' hB hU hO hact hf
      rw [hu] at q2; cases q2
      rw [hl] at q3; cases q3
      cases n with
      | zero => simp [goX] at hx
      | succ n =>
        simp only [goX, q1, hu, hl] at hx
        rcases q4 with ⟨q5, _⟩ | ⟨s1, tv, m, q5, q6, q7⟩
        · rw [q5] at hx; simp at hx
        · rw [q5] at hx
          obtain ⟨held', q8⟩ := block_heap hB hU hO hI hact hh hf hu hl hb q6
          exact ih n s1 s' _ held' (some m) ⟨q7, q8⟩ hx
  | @prim h p k w hp h' hfn hok hk hpr _ ih =>
    intro n s s' t held act hs hx
    cases act with
    | some _ => exact hs.elim
    | none =>
      obtain ⟨hf, hact, hh⟩ := state_active hB hs (by rw [hfn]; simp)
      rw [hfn] at hf
      obtain ⟨w1, w2⟩ := active_world hact
      obtain ⟨q1, k', q2, q3, q4⟩ := active_prim hact hf
      rw [hk] at q2; cases q2
      cases n with
      | zero => simp [goX] at hx
      | succ n =>
        simp only [goX, q1, hk] at hx
        split at hx
        · rename_i v w' hv
          obtain ⟨q5, q6⟩ := cprim_sane hO (by rw [q3]; exact q4) w2 hv
          rw [q3] at hv
          obtain ⟨hi, hr, _⟩ := hh
          have hargs : OwnsAll h.heap.cell held (readW h.mem (h.ctx.bp + 1) k) (readAt t.mem (t.ctx.bp + 1) k) := by
            obtain ⟨_, _, ⟨size, k', a1, a2, a3, a4, a5, a6⟩, _⟩ := hact
            have hregs := hr size k' (by rw [← hi.same.1]; exact a3) (by rw [← hi.same.1]; exact a5)
            rw [hf] at a5
            cases a5 with
            | prim b1 b2 =>
              rw [hk] at b1; cases b1
              rw [hi.same.1]
              refine regs_owns fun i hi => ?_
              rw [show h.ctx.bp + 1 + i = h.ctx.bp + (i + 1) by omega]
              exact hregs (i + 1) (by omega)
          obtain ⟨held', r1, r2, r3⟩ := prim_sim hI hi.ok hargs hi.world (by rw [w1]; exact hv) hpr
          exact ih n _ s' _ held' (some (.ret v)) ⟨⟨q5, _, _, pend_world hact.1 q6⟩, hi.onward r1 r3, r2⟩ hx
        · simp at hx
  | @native h id k w hp h' hfn hok hpr _ ih =>
    intro n s s' t held act hs hx
    cases act with
    | some _ => exact hs.elim
    | none =>
      obtain ⟨hf, hact, hh⟩ := state_active hB hs (by rw [hfn]; simp)
      rw [hfn] at hf
      obtain ⟨w1, w2⟩ := active_world hact
      obtain ⟨q1, q3, q4⟩ := active_native hact hf
      cases n with
      | zero => simp [goX] at hx
      | succ n =>
        simp only [goX, q1] at hx
        split at hx
        · rename_i v w' hv
          obtain ⟨q5, q6⟩ := hO.2 units id _ _ _ _ (by rw [q3]; exact q4) w2 hv
          rw [q3] at hv
          obtain ⟨hi, hr, _⟩ := hh
          have hargs : OwnsAll h.heap.cell held (readW h.mem (h.ctx.bp + 1) k) (readAt t.mem (t.ctx.bp + 1) k) := by
            obtain ⟨_, _, ⟨size, k', a1, a2, a3, a4, a5, a6⟩, _⟩ := hact
            have hregs := hr size k' (by rw [← hi.same.1]; exact a3) (by rw [← hi.same.1]; exact a5)
            rw [hf] at a5
            cases a5 with
            | native b1 =>
              rw [hi.same.1]
              refine regs_owns fun i hi => ?_
              rw [show h.ctx.bp + 1 + i = h.ctx.bp + (i + 1) by omega]
              exact hregs (i + 1) (by omega)
          obtain ⟨⟨ws', b1, b2⟩, b3⟩ := hI.native id _ _ _ _ hpr
          obtain ⟨held', r1, r2⟩ := acts_later b1 hi.ok hargs.holds
          obtain ⟨r3, r4⟩ := b3 _ _ v w' hargs.shows hi.world (by rw [w1]; exact hv)
          exact ih n _ s' _ held' (some (.ret v)) ⟨⟨q5, _, _, pend_world hact.1 q6⟩, hi.onward r1 r4, r3, r2 w b2⟩ hx
        · simp at hx
  | @curry h h1 h' hfn hok hc _ ih =>
    intro n s s' t held act hs hx
    cases act with
    | some _ => exact hs.elim
    | none =>
      obtain ⟨hf, hact, hh⟩ := state_active hB hs (by rw [hfn]; simp)
      rw [hfn] at hf
      obtain ⟨q1, s1, tv, q2, q3, q4⟩ := curry_sim hB hact hf
      cases n with
      | zero => simp [goX] at hx
      | succ n =>
        simp only [goX, q1, q2] at hx
        obtain ⟨held', q5⟩ := curry_heap hB hact hh hf hc q3
        exact ih n s1 s' _ held' none (.inr ⟨q4, q5⟩) hx
  | @ret h w h1 h' hr _ ih =>
    intro n s s' t held act hs hx
    cases act with
    | none => exact hs.elim
    | some m =>
      obtain ⟨hp, hh⟩ := hs
      cases m with
      | call => exact hh.elim
      | ret v =>
        obtain ⟨hi, hw⟩ := hh
        obtain ⟨hv, x, y, hp⟩ := hp
        obtain ⟨s1, q1, q2, q3⟩ := seg_ret hB hp hv
        obtain ⟨t1, ht1⟩ := q2 trivial
        obtain ⟨r1, r2, f, r3, r4, r5, r6, r7⟩ := ret_sim hi hw hr ht1
        cases n with
        | zero => simp [goX] at hx
        | succ n =>
          simp only [goX, q1] at hx
          refine ih n s1 s' t1 held none ?_ hx
          rcases q3 t1 ht1 with q4 | q4
          · exact .inl ⟨q4, r1, r2⟩
          · refine .inr ⟨q4, r1, ?_, fun _ => r2⟩
            obtain ⟨_, L, M, data', hL, _, _, _, _, _, hst⟩ := hp
            obtain ⟨f', fs, _, _, rfl, _⟩ := under_ne (b := 0) (r := []) (x := 0) hst
            rw [r3, List.cons_append] at hL
            have hne := active_fn q4
            injection hL with e1 e2
            have := hi.frames (f' :: fs) (by rw [r3, e1, e2]; rfl) f' (by simp) (by rw [← e1, ← r4]; exact hne)
            rw [← r1.same.1, r4, e1, r5, r6, r7]
            exact this
  | @call h f args code nframe data h1 h' hc he _ ih =>
    intro n s s' t held act hs hx
    cases act with
    | none => exact hs.elim
    | some m =>
      obtain ⟨hp, hh⟩ := hs
      cases m with
      | ret => exact hh.elim
      | call g vs =>
        obtain ⟨hi, hw, hws⟩ := hh
        obtain ⟨hg, hvs, hp⟩ := hp
        cases n with
        | zero => simp [goX] at hx
        | succ n =>
          simp only [goX] at hx
          cases har : g.arity with
          | none => simp [har] at hx
          | some m =>
            obtain ⟨data', hd⟩ := shows_fn hw.1 har
            rw [hd] at hc; cases hc
            have hl := hws.length
            simp only [har] at hx
            rw [if_pos hl.symm] at hx
            rw [hl] at har
            obtain ⟨t1, ht1, hact⟩ := seg_enter hB hm hp hg har hvs
            exact ih n _ s' t1 held none (.inr ⟨hact, enter_heap hB hi hp hm hg har hw hws he ht1⟩) hx
  | @callNone h f code nframe required data h' hc hr _ ih =>
    intro n s s' t held act hs hx
    cases act with
    | none => exact hs.elim
    | some m =>
      obtain ⟨hp, hh⟩ := hs
      cases m with
      | ret => exact hh.elim
      | call g vs =>
        obtain ⟨hi, hw, hws⟩ := hh
        obtain ⟨hg, hvs, hp⟩ := hp
        cases hws
        cases n with
        | zero => simp [goX] at hx
        | succ n =>
          simp only [goX] at hx
          cases har : g.arity with
          | none => simp [har] at hx
          | some m =>
            obtain ⟨data', hd⟩ := shows_fn hw.1 har
            rw [hd] at hc; cases hc
            simp only [har] at hx
            rw [if_neg (by simpa using Ne.symm hr), if_pos (by simp)] at hx
            exact ih n _ s' t held (some (.ret g)) ⟨⟨hg, _, _, hp⟩, hi, hw⟩ hx
  | @callLess h f args code nframe required data hp' x h' hc h0 hlt hn _ ih =>
    intro n s s' t held act hs hx
    cases act with
    | none => exact hs.elim
    | some m =>
      obtain ⟨hp, hh⟩ := hs
      cases m with
      | ret => exact hh.elim
      | call g vs =>
        obtain ⟨hi, hw, hws⟩ := hh
        obtain ⟨hg, hvs, hp⟩ := hp
        cases n with
        | zero => simp [goX] at hx
        | succ n =>
          simp only [goX] at hx
          cases har : g.arity with
          | none => simp [har] at hx
          | some m =>
            obtain ⟨data', hd⟩ := shows_fn hw.1 har
            rw [hd] at hc; cases hc
            have hl := hws.length
            simp only [har] at hx
            rw [if_neg (by omega), if_neg (by omega), if_pos (by omega)] at hx
            obtain ⟨held', a1, a2, a3, a4, a5⟩ := new_later hi.ok hn (by
              intro u hu
              simp only [Cell.words, List.mem_cons] at hu
              rcases hu with rfl | hu
              · exact hw.2
              · exact hws.holds u hu)
            have hws' := a1.hasAll hws
            refine ih n _ s' t held' (some (.ret (.pap g vs))) ⟨⟨.pap hg hvs har (by omega) (by omega), _, _, hp⟩, hi.onward a1 (a1.world hi.ok a4 a5 hi.world), ?_, fun q hq => by cases hq; exact a3⟩ hx
            exact .pap har (by rw [a2, hl]) (a1.has hw).1 hl hws'.shows.2
  | @callMore h f args code nframe required data h1 h2 h' hc hlt he _ _ ih1 ih2 =>
    intro n s s' t held act hs hx
    cases act with
    | none => exact hs.elim
    | some m =>
      obtain ⟨hp, hh⟩ := hs
      cases m with
      | ret => exact hh.elim
      | call g vs =>
        obtain ⟨hi, hw, hws⟩ := hh
        cases n with
        | zero => simp [goX] at hx
        | succ n =>
          simp only [goX] at hx
          cases har : g.arity with
          | none => simp [har] at hx
          | some m =>
            obtain ⟨data', hd⟩ := shows_fn hw.1 har
            rw [hd] at hc; cases hc
            have hl := hws.length
            simp only [har] at hx
            rw [if_neg (by omega), if_neg (by omega), if_neg (by omega)] at hx
            simp at hx

end

/-! ### loading a file -/

/-- a state with segments for a state with a heap; `v0` is in the first register -/
def segOf (h : HMach W) (v0 : MVal) (w : CWorld MCode W) : SMach W :=
  ⟨h.ctx, h.frames, h.begin_, h.end_, h.data, h.segs, fun _ => v0, .nil, w⟩

/-- what callers have when a file is loaded -/
def callersOf (h : HMach W) (v0 : MVal) (w : CWorld MCode W) (mine : List SlotId) (hr : ∃ r, h.data = h.begin_ :: r) (hmine : InCallers h mine) : Before where
  B := inner (flatOf (segOf h v0 w)) (segOf h v0 w)
  hmem := h.mem
  cell := h.heap.cell
  Kept := fun x => x ∈ mine
  there := by
    intro x hx
    obtain ⟨f, hf, p, h1, h2, h3, h4⟩ := hmine x hx
    refine ⟨f, hf, p, h1, h2, ⟨h3.1, fun b r' hb => ?_⟩, h4⟩
    obtain ⟨r, hr⟩ := hr
    simp only [inner, segOf, hr] at hb ⊢
    injection hb with hb _
    rw [← hb]
    exact h3.2

/-- the state in which a file is loaded -/
theorem load_state {units : List (List Lam)} (hU : UnitsOk units) {w' : CWorld MCode W}
    {e : Core} {k k' : Nat} {file : List Lam} (hc : compile e k = some (file, k')) (hsmall : SmallFrames file)
    (hsw : SaneWorld units w') {n : Nat} (hroom : FitsFrame n file) {h : HMach W} {held mine : List SlotId}
    (hin : InHeap n h held) (hsh : ShowsWorld h.heap w') (hmine : InCallers h mine) (hsub : ∀ x ∈ mine, x ∈ held) :
    ∃ v0, UnitsOk (units ++ [file]) ∧ (callersOf h v0 w' mine hin.top hmine).B.Ok ∧ InSegment n (segOf h v0 w') ∧
      Active True (units ++ [file]) (callersOf h v0 w' mine hin.top hmine).B ((flatOf (segOf h v0 w')).loadSo units.length (file.length - 1))
        ((segOf h v0 w').loadSo units.length (file.length - 1)) ∧
      HActive (units ++ [file]) (callersOf h v0 w' mine hin.top hmine) (h.loadSo units.length (file.length - 1))
        ((segOf h v0 w').loadSo units.length (file.length - 1)) held := by
  obtain ⟨hgood, top, htop, hlast, hparams⟩ := compile_good hc
  have hU' : UnitsOk (units ++ [file]) := by
    intro code hcode
    rcases List.mem_append.mp hcode with hcode | hcode
    · exact hU code hcode
    · rw [List.mem_singleton] at hcode
      subst hcode
      exact ⟨hsmall, hgood⟩
  obtain ⟨v0, hv0, hcap⟩ := hin.self
  have hseg : InSegment n (segOf h v0 w') :=
    ⟨hcap, hin.size, hin.some, hin.top, hin.last, hin.low, hin.high, hin.there, hin.once, hin.apart⟩
  obtain ⟨hB, hact⟩ := load_active (strict := True) hseg hroom hsw htop hlast hparams
  have hinv : HInv (units ++ [file]) (callersOf h v0 w' mine hin.top hmine) (h.loadSo units.length (file.length - 1))
      ((segOf h v0 w').loadSo units.length (file.length - 1)) held := by
    refine ⟨⟨rfl, rfl, rfl, rfl, rfl, rfl⟩, hin.heap, hsh, fun L hL f hf hne => ?_, fun _ _ => rfl, hsub, fun _ _ h _ => h⟩
    have hL' : [({ h.ctx with fn := .exit, label := 0 } : MFrame)] ++ h.frames = L ++ h.frames := hL
    have := List.append_cancel_right hL'
    subst this
    rw [List.mem_singleton] at hf
    subst hf
    exact absurd rfl hne
  have hactive : HActive (units ++ [file]) (callersOf h v0 w' mine hin.top hmine) (h.loadSo units.length (file.length - 1))
      ((segOf h v0 w').loadSo units.length (file.length - 1)) held := by
    refine ⟨hinv, fun size k hs hn i hi => ?_, fun h => absurd rfl h⟩
    have hk1 : k = 1 := by
      cases hn with
      | code b1 b2 b3 b4 b5 b6 =>
        simp only [List.getElem?_append_right (Nat.le_refl _), Nat.sub_self, List.getElem?_cons_zero, Option.some.injEq] at b1
        subst b1
        rw [htop] at b2; cases b2
        rcases b5 with ⟨_, rfl⟩ | ⟨i, c, h0, _⟩
        · rw [hparams]; rfl
        · simp [HMach.loadSo] at h0
    obtain rfl : i = 0 := by omega
    exact ⟨hv0, hin.holds⟩
  exact ⟨v0, hU', hB, hseg, hact, hactive⟩

theorem load_heap {E : Ext W} {O : Outside W} {HO : HOutside W} (hA : Agree E O) (hO : Parametric O) (hK : KeepsSane O) (hI : Implements HO O)
    {malloc : List Nat → Nat} (hm : Fresh malloc) {units : List (List Lam)} (hU : UnitsOk units) {w w1 : World W} {w' : CWorld MCode W}
    {e : Core} {v : Val} {o : Operand} (hx : XEval false E [] w e v o w1) {k k' : Nat} {file : List Lam} (hk : Below k e.syms)
    (hb : NoPrims e.binders) (hfull : e.full) (ht : e.tidy []) (hc : compile e k = some (file, k')) (hsmall : SmallFrames file)
    (hw : MWorld units w w') (hsw : SaneWorld units w') {n : Nat} (hroom : FitsFrame n file) {h : HMach W} {held mine : List SlotId}
    (hin : InHeap n h held) (hsh : ShowsWorld h.heap w') (hmine : InCallers h mine) (hsub : ∀ x ∈ mine, x ∈ held) :
    UnitsOk (units ++ [file]) ∧
    ∀ h', HGo malloc HO (units ++ [file]) (h.loadSo units.length (file.length - 1)) none h' →
      ∃ held' u w'', Shows h'.heap.cell h'.res u ∧ Holds held' h'.res ∧ MRel (units ++ [file]) v u ∧ ShowsWorld h'.heap w'' ∧
      MWorld (units ++ [file]) w1 w'' ∧ SaneWorld (units ++ [file]) w'' ∧ HeapOk h'.heap held' ∧
      h'.ctx = { h.ctx with fn := .exit, label := 0 } ∧ h'.frames = h.frames ∧ h'.data = h.data ∧ h'.segs = h.segs ∧
      h'.begin_ = h.begin_ ∧ h'.end_ = h.end_ ∧ (∀ p, HCallers h p → h'.mem p = h.mem p) ∧ (∀ x ∈ mine, x ∈ held') ∧
      ∀ a u, Shows h.heap.cell a u → Holds mine a → Shows h'.heap.cell a u := by
  obtain ⟨v0, hU', hB, hseg, hact, hactive⟩ := load_state hU hc hsmall hsw hroom hin hsh hmine hsub
  refine ⟨hU', fun h' hgo => ?_⟩
  obtain ⟨s', ⟨fuel, hfuel⟩, h1, h2, h3, h4, h5⟩ := load_sim hA hO hx hk hb hfull ht hc (flatOf (segOf h v0 w')) hw ⟨hseg.captured, hseg.size⟩ hroom
  obtain ⟨t', held', he, hd⟩ := heap_sound hB hU' hK hm hI hgo fuel _ s' _ held none (.inr ⟨hact, hactive⟩) hfuel
  obtain ⟨⟨d1, d2, ⟨r2, hr2⟩, d4, ⟨new, hd1, hh⟩, d6, d7, d8, d9⟩, e1, e2, e3, e4, e5, e6, e7⟩ := he
  obtain ⟨hi, ho⟩ := hd
  have hnew : new = [] := by
    rw [e5] at hd1
    have := congrArg List.length hd1
    simp only [List.length_append] at this
    exact List.length_eq_zero_iff.mp (by omega)
  subst hnew
  obtain ⟨s1, s2, s3, s4, s5, s6⟩ := hi.same
  obtain ⟨r, hr⟩ := hin.top
  have hbeg : t'.begin_ = h.begin_ := by
    have hd2 : t'.data = h.data := hd1
    rw [hr2, hr] at hd2
    injection hd2
  refine ⟨held', t'.res, t'.world, ho.1, ho.2, e6 ▸ h1, hi.world, d1 ▸ h2, d1 ▸ d2, hi.ok, s1 ▸ e1, s2 ▸ e3, s5 ▸ hd1, s6 ▸ hh, by rw [← s3, hbeg],
    by rw [← s4, d4, hbeg, hin.last], fun p hp => ?_, fun x hx => hi.keeps x hx, fun a u ha hh => hi.kept a u ha fun x hx => hh x hx⟩
  exact hi.prot p ⟨hp.1, fun b r' hb => by
    have hb' : h.data = b :: r' := hb
    rw [hr] at hb'
    injection hb' with hb' _
    rw [← hb']
    exact hp.2⟩

end Cora.Compile
