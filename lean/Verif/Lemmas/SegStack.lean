import Verif.Lemmas.SegMachine
/-
How frames in segments are related to frames in one array.
-/
open Spec.Lang Spec.Compiled
namespace Cora.Compile
variable {W : Type}

/-! ### frames -/

/-- the first `k` registers of a frame of `size` registers are used by the function `fn` when it goes on at `label`; `v` is in register 0 -/
inductive Needs (units : List (List Lam)) : Fn → Nat → MVal → Nat → Nat → Prop where
  | code {u l label v size k code lam} : units[u]? = some code → code[l]? = some lam → lam.params.length < size →
      (∀ c ∈ lam.conts, c.live.length < size) →
      ((label = 0 ∧ k = lam.params.length + 1) ∨ ∃ i c, label = i + 1 ∧ lam.conts[i]? = some c ∧ k = c.live.length + 1) →
      (∀ x ∈ capturedOf v, Sane units x) → Needs units (.code u l) label v size k
  | prim {p n label v size} : primArity p = some n → n < size → Needs units (.prim p) label v size (n + 1)
  | native {id n label v size} : n < size → Needs units (.native id n) label v size (n + 1)
  | curry {f got n label} : Sane units (.pap f got) → (CVal.pap f got).arity = some n →
      Needs units .curry label (.pap f got) (nframeOf f) (n + 1)

section
variable {units : List (List Lam)}

theorem Needs.le {fn : Fn} {label : Nat} {v : MVal} {size k : Nat} (h : Needs units fn label v size k) : 0 < k ∧ k ≤ size := by
  cases h with
  | code h1 h2 h3 h4 h5 h6 =>
    rcases h5 with ⟨_, rfl⟩ | ⟨i, c, _, hc, rfl⟩
    · omega
    · have := h4 c (List.mem_of_getElem? hc)
      omega
  | prim h1 h2 => omega
  | native h1 => omega
  | curry h1 h2 =>
    have := sane_frame h1 h2
    simp only [nframeOf] at this
    omega

theorem Needs.noExit {fn : Fn} {label : Nat} {v : MVal} {size k : Nat} (h : Needs units fn label v size k) : fn ≠ .exit := by
  cases h <;> simp

/-- the frame of a function that is called -/
theorem needs_enter {f : MVal} (hf : Sane units f) {n : Nat} (hn : f.arity = some n) :
    Needs units (fnOf f) 0 f (nframeOf f) (n + 1) := by
  cases hf with
  | clo h1 h2 h3 h4 h5 h6 =>
    simp only [CVal.arity, Option.some.injEq] at hn
    rename_i m c caps code lam
    have := frameSize_spec lam
    exact .code h1 h2 (by simp only [nframeOf]; omega) (fun c hc => by have := this.2 c hc; simp only [nframeOf]; omega)
      (.inl ⟨rfl, by omega⟩) h6
  | prim h1 => exact .prim hn (by simp only [CVal.arity] at hn; simp [nframeOf, hn])
  | native h1 =>
    simp only [CVal.arity, Option.some.injEq] at hn
    subst hn
    exact .native (by simp [nframeOf])
  | pap h1 h2 h3 h4 h5 => exact .curry (.pap h1 h2 h3 h4 h5) hn
  | _ => simp [CVal.arity] at hn

/-- a frame in a segment and one in the array have the same in the registers that are used -/
def Fr (units : List (List Lam)) (mem st : Nat → MVal) (f g : MFrame) : Prop :=
  ∃ size k, g.fn = f.fn ∧ g.label = f.label ∧ f.sp = f.bp + size ∧ g.sp = g.bp + size ∧
    Needs units f.fn f.label (mem f.bp) size k ∧ ∀ i < k, mem (f.bp + i) = st (g.bp + i) ∧ (0 < i → Sane units (mem (f.bp + i)))

theorem Fr.cong {mem st mem' st' : Nat → MVal} {f g : MFrame} (h : Fr units mem st f g) (hm : ∀ p, f.bp ≤ p → p < f.sp → mem' p = mem p)
    (hs : ∀ p, g.bp ≤ p → p < g.sp → st' p = st p) : Fr units mem' st' f g := by
  obtain ⟨size, k, h1, h2, h3, h4, h5, h6⟩ := h
  obtain ⟨hk0, hk⟩ := h5.le
  refine ⟨size, k, h1, h2, h3, h4, ?_, fun i hi => ?_⟩
  · rw [hm f.bp (by omega) (by omega)]; exact h5
  · rw [hm _ (by omega) (by omega), hs _ (by omega) (by omega)]
    exact h6 i hi

end

/-- where the free registers after a frame begin -/
def lim (f : MFrame) : Nat := match f.fn with | .exit => f.bp | _ => f.sp

theorem lim_sp {f : MFrame} (h : f.fn ≠ .exit) : lim f = f.sp := by
  unfold lim
  split
  · contradiction
  · rfl

theorem lim_bp {f : MFrame} (h : f.fn = .exit) : lim f = f.bp := by unfold lim; rw [h]

/-- after the first frame -/
def limHead : List MFrame → Nat
  | [] => 0
  | f :: _ => lim f

/-- the frame is in the segment -/
def InSeg (b : Nat) (f : MFrame) : Prop := b ≤ f.bp ∧ f.bp ≤ f.sp ∧ f.sp < b + 256

/-- Registers are free from `x` on in the segment `b`, which has `r` below it. The frames `fs` are in the segments `data'`. -/
def Under (strict : Prop) (b : Nat) (r data' : List Nat) (x : Nat) (fs : List MFrame) : Prop :=
  (data' = b :: r ∧ limHead fs ≤ x) ∨ (data' <:+ r ∧ (strict → data' = r ∧ x = b))

/-- the state that a run has to come back to -/
structure Base where
  f0 : MFrame
  g0 : MFrame
  F0 : List MFrame
  G0 : List MFrame
  data0 : List Nat
  heap0 : List Nat
  mem0 : Nat → MVal
  st0 : Nat → MVal

/-- the frame that ends the run is in the current segment -/
def Base.Ok (B : Base) : Prop := B.f0.fn = .exit ∧ B.g0.fn = .exit ∧ (∃ b r, B.data0 = b :: r ∧ InSeg b B.f0) ∧ ∀ b ∈ B.data0, b ∈ B.heap0

/-- registers of callers -/
def Base.Prot (B : Base) (p : Nat) : Prop :=
  (∃ b ∈ B.heap0, b ≤ p ∧ p < b + 256) ∧ ∀ b r, B.data0 = b :: r → ¬ (B.f0.bp ≤ p ∧ p < b + 256)

/-- the frames of a run, from the last one to the one that ends the run -/
inductive Stk (strict : Prop) (units : List (List Lam)) (B : Base) (mem st : Nat → MVal) : List Nat → List MFrame → List MFrame → Prop where
  | base : Stk strict units B mem st B.data0 [B.f0] [B.g0]
  | cons {b r data' f g fs gs} : InSeg b f → Fr units mem st f g → Under strict b r data' f.bp fs → limHead gs ≤ g.bp →
      Stk strict units B mem st data' fs gs → Stk strict units B mem st (b :: r) (f :: fs) (g :: gs)

section
variable {strict : Prop} {units : List (List Lam)} {B : Base} {mem st mem' st' : Nat → MVal}

theorem Fr.noExit {f g : MFrame} (h : Fr units mem st f g) : f.fn ≠ .exit ∧ g.fn ≠ .exit := by
  obtain ⟨size, k, h1, h2, h3, h4, h5, h6⟩ := h
  exact ⟨h5.noExit, h1 ▸ h5.noExit⟩

theorem Stk.cong {data : List Nat} {L M : List MFrame} (h : Stk strict units B mem st data L M) :
    data.Nodup → (∀ b ∈ data, ∀ p, b ≤ p → p < b + 256 → (∀ r, data = b :: r → p < limHead L) → mem' p = mem p) →
    (∀ p < limHead M, st' p = st p) → Stk strict units B mem' st' data L M := by
  induction h with
  | base => exact fun _ _ _ => .base
  | @cons b r data' f g fs gs h1 h2 h3 h4 h5 ih =>
    intro hd hm hs
    obtain ⟨h1a, h1b, h1c⟩ := h1
    obtain ⟨hfe, hge⟩ := h2.noExit
    simp only [limHead, lim_sp hfe, lim_sp hge] at hm hs
    have hgs : g.bp ≤ g.sp := by
      obtain ⟨size, k, _, _, _, h, _⟩ := h2
      omega
    refine .cons ⟨h1a, h1b, h1c⟩ (h2.cong (fun p hp hp' => ?_) fun p _ hp => hs p hp) h3 h4 (ih ?_ ?_ fun p hp => hs p (by omega))
    · exact hm b (by simp) p (by omega) (by omega) fun _ _ => hp'
    · rcases h3 with ⟨rfl, _⟩ | ⟨h, _⟩
      · exact hd
      · exact (List.nodup_cons.mp hd).2.sublist h.sublist
    · intro b' hb' p hp hp' hlim
      rcases h3 with ⟨rfl, hx⟩ | ⟨h, _⟩
      · exact hm b' hb' p hp hp' fun r' hr => by have := hlim r' hr; omega
      · have hbr := h.subset hb'
        refine hm b' (by simp [hbr]) p hp hp' fun r' hr => ?_
        injection hr with hr1 hr2
        subst hr1
        exact absurd hbr (List.nodup_cons.mp hd).1

theorem Stk.suffix {data : List Nat} {L M : List MFrame} (h : Stk strict units B mem st data L M) : B.data0 <:+ data := by
  induction h with
  | base => exact List.suffix_refl _
  | cons h1 h2 h3 h4 h5 ih =>
    rcases h3 with ⟨rfl, _⟩ | ⟨h, _⟩
    · exact ih
    · exact (ih.trans h).trans (List.suffix_cons _ _)

theorem suffix_short {a b r : List Nat} {x : Nat} (h1 : a <:+ b) (h2 : b <:+ r) : x :: r ≠ a := by
  intro h
  have := (h1.trans h2).length_le
  rw [← h] at this
  simp at this
  omega

theorem Stk.floor (hB : B.Ok) {data : List Nat} {L M : List MFrame} (h : Stk strict units B mem st data L M) :
    data = B.data0 → B.f0.bp ≤ limHead L := by
  induction h with
  | base => intro _; simp only [limHead]; rw [lim_bp hB.1]; omega
  | cons h1 h2 h3 h4 h5 ih =>
    intro hd
    simp only [limHead]
    rw [lim_sp h2.noExit.1]
    obtain ⟨h1a, h1b, h1c⟩ := h1
    rcases h3 with ⟨rfl, hx⟩ | ⟨h, _⟩
    · have := ih hd
      omega
    · exact absurd hd (suffix_short h5.suffix h)

theorem Stk.flat (hB : B.Ok) {data : List Nat} {L M : List MFrame} (h : Stk strict units B mem st data L M) : B.g0.bp ≤ limHead M := by
  induction h with
  | base => simp only [limHead]; rw [lim_bp hB.2.1]; omega
  | cons h1 h2 h3 h4 h5 ih =>
    simp only [limHead]
    rw [lim_sp h2.noExit.2]
    obtain ⟨size, k, _, _, _, h, _⟩ := h2
    omega

theorem Stk.nodup {data' r : List Nat} {b x : Nat} {L : List MFrame} (hd : (b :: r).Nodup) (h : Under strict b r data' x L) :
    data'.Nodup := by
  rcases h with ⟨rfl, _⟩ | ⟨h, _⟩
  · exact hd
  · exact (List.nodup_cons.mp hd).2.sublist h.sublist

/-! ### states -/

/-- what always holds -/
def Common (units : List (List Lam)) (B : Base) (s : Mach W) (t : SMach W) : Prop :=
  t.world = s.world ∧ SaneWorld units s.world ∧ (∃ r, t.data = t.begin_ :: r) ∧ t.end_ = t.begin_ + 256 ∧
  (∃ new, t.data = new ++ B.data0 ∧ t.heap = new ++ B.heap0) ∧ t.data.Nodup ∧ t.heap.Pairwise Apart ∧
  (∀ p, B.Prot p → t.mem p = B.mem0 p) ∧ (∀ p < B.g0.bp, s.stack p = B.st0 p)

/-- an action is pending: registers are free from `x` on in the current segment, and from `y` on in the array -/
def SPend (strict : Prop) (units : List (List Lam)) (B : Base) (x y : Nat) (s : Mach W) (t : SMach W) : Prop :=
  Common units B s t ∧ ∃ L M data', t.frames = L ++ B.F0 ∧ s.frames = M ++ B.G0 ∧ t.begin_ ≤ x ∧ x < t.begin_ + 256 ∧
    Under strict t.begin_ t.data.tail data' x L ∧ limHead M ≤ y ∧ Stk strict units B t.mem s.stack data' L M

/-- a function runs -/
def Active (strict : Prop) (units : List (List Lam)) (B : Base) (s : Mach W) (t : SMach W) : Prop :=
  SPend strict units B t.ctx.bp s.ctx.bp s t ∧ InSeg t.begin_ t.ctx ∧ Fr units t.mem s.stack t.ctx s.ctx ∧
    (t.ctx.label ≠ 0 → t.res = s.res ∧ Sane units s.res)

/-- the run has ended -/
def SEnded (units : List (List Lam)) (B : Base) (s : Mach W) (t : SMach W) : Prop :=
  Common units B s t ∧ t.ctx = B.f0 ∧ s.ctx = B.g0 ∧ t.frames = B.F0 ∧ s.frames = B.G0 ∧ t.data = B.data0 ∧
    t.res = s.res ∧ Sane units s.res

/-- an action is pending -/
def PAct (strict : Prop) (units : List (List Lam)) (B : Base) (a : MAct) (s : Mach W) (t : SMach W) : Prop :=
  match a with
  | .ret v => Sane units v ∧ ∃ x y, SPend strict units B x y s t
  | .call f args => Sane units f ∧ (∀ v ∈ args, Sane units v) ∧ SPend strict units B t.ctx.sp s.ctx.sp s t

/-- different allocated segments do not overlap -/
theorem apart_eq {heap : List Nat} (h : heap.Pairwise Apart) {a b p : Nat} (ha : a ∈ heap) (hb : b ∈ heap) (h1 : a ≤ p) (h2 : p < a + 256)
    (h3 : b ≤ p) (h4 : p < b + 256) : a = b := by
  induction heap with
  | nil => simp at ha
  | cons c heap ih =>
    obtain ⟨hc, hh⟩ := List.pairwise_cons.mp h
    unfold Apart at hc
    rcases List.mem_cons.mp ha with rfl | ha1 <;> rcases List.mem_cons.mp hb with rfl | hb1
    · rfl
    · have := hc b hb1; omega
    · have := hc a ha1; omega
    · exact ih hh ha1 hb1

theorem apart_nodup {heap : List Nat} (h : heap.Pairwise Apart) : heap.Nodup :=
  h.imp fun {a b} hab => by unfold Apart at hab; omega

theorem common_there (hB : B.Ok) {s : Mach W} {t : SMach W} (h : Common units B s t) : ∀ b ∈ t.data, b ∈ t.heap := by
  obtain ⟨_, _, _, _, ⟨new, h1, h2⟩, _⟩ := h
  rw [h1, h2]
  intro b hb
  rcases List.mem_append.mp hb with hb | hb
  · simp [hb]
  · simp [hB.2.2.2 b hb]

/-- free registers are not those of callers -/
theorem pend_free (hB : B.Ok) {x y p : Nat} {s : Mach W} {t : SMach W} (h : SPend strict units B x y s t) (h1 : x ≤ p)
    (h2 : p < t.begin_ + 256) : ¬ B.Prot p := by
  rintro ⟨⟨b, hb, hbp, hbp'⟩, hp⟩
  obtain ⟨hc, L, M, data', hL, hM, hx, hx', hu, hy, hst⟩ := h
  have hthere := common_there hB hc
  obtain ⟨_, _, ⟨r, hr⟩, _, ⟨new, hd, hh⟩, _, hap, _⟩ := hc
  have hbeg : t.begin_ ∈ t.heap := hthere _ (by rw [hr]; simp)
  have := apart_eq hap (a := b) (b := t.begin_) (p := p) (by rw [hh]; simp [hb]) hbeg hbp hbp' (by omega) h2
  subst this
  cases new with
  | cons c new =>
    rw [hr] at hd
    injection hd with hd _
    rw [hd] at hb
    rw [hh] at hap
    have := apart_nodup hap
    simp only [List.cons_append, List.nodup_cons, List.mem_append, not_or] at this
    exact this.1.2 hb
  | nil =>
    simp only [List.nil_append] at hd
    have h3 : B.f0.bp ≤ x := by
      rw [hr] at hu
      simp only [List.tail_cons] at hu
      rcases hu with ⟨rfl, hl⟩ | ⟨h, _⟩
      · have := hst.floor hB (by rw [← hd, hr])
        omega
      · exact absurd (hr ▸ hd) (suffix_short hst.suffix h)
    exact hp t.begin_ r (by rw [← hd, hr]) ⟨by omega, by omega⟩

/-- writing free registers -/
theorem pend_write (hB : B.Ok) {x y : Nat} {s : Mach W} {t : SMach W} (h : SPend strict units B x y s t)
    (hm : ∀ p, (∃ b ∈ t.heap, b ≤ p ∧ p < b + 256) → ¬ (x ≤ p ∧ p < t.begin_ + 256) → mem' p = t.mem p) (hs : ∀ p < y, st' p = s.stack p) :
    SPend strict units B x y { s with stack := st' } { t with mem := mem' } := by
  have hfree := @pend_free W strict units B hB x y
  have h' := h
  obtain ⟨hc, L, M, data', hL, hM, hx, hx', hu, hy, hst⟩ := h
  have hthere := common_there hB hc
  obtain ⟨c1, c2, ⟨r, hr⟩, c4, c5, c6, c7, c8, c9⟩ := hc
  have hflat := hst.flat hB
  refine ⟨⟨c1, c2, ⟨r, hr⟩, c4, c5, c6, c7, fun p hp => ?_, fun p hp => ?_⟩, L, M, data', hL, hM, hx, hx', hu, hy, ?_⟩
  · show mem' p = _
    have hall : ∃ b ∈ t.heap, b ≤ p ∧ p < b + 256 := by
      obtain ⟨⟨b, hb, hb'⟩, _⟩ := hp
      obtain ⟨new, _, hh⟩ := c5
      exact ⟨b, by rw [hh]; simp [hb], hb'⟩
    rw [hm p hall fun hh => hfree h' hh.1 hh.2 hp, c8 p hp]
  · show st' p = _
    rw [hs p (by omega), c9 p hp]
  · have hu' := hu
    rw [hr] at hu hthere c6
    simp only [List.tail_cons] at hu
    refine hst.cong (Stk.nodup c6 hu) (fun b hb p hp hp' hl => ?_) fun p hp => hs p (by omega)
    have hbd : b ∈ t.begin_ :: r := by
      rcases hu with ⟨rfl, _⟩ | ⟨h, _⟩
      · exact hb
      · exact List.mem_cons_of_mem _ (h.subset hb)
    refine hm p ⟨b, hthere b hbd, hp, hp'⟩ fun hh => ?_
    -- `p` would be in the current segment
    have := apart_eq c7 (hthere b hbd) (hthere t.begin_ (by simp)) hp hp' (by omega) hh.2
    subst this
    rcases hu with ⟨rfl, h⟩ | ⟨h, _⟩
    · have := hl r rfl
      omega
    · exact absurd (h.subset hb) (List.nodup_cons.mp c6).1

/-! ### returning -/

theorem under_ne {b : Nat} {r data' : List Nat} {x : Nat} {L : List MFrame} {M : List MFrame}
    (hst : Stk strict units B mem st data' L M) : ∃ f fs g gs, L = f :: fs ∧ M = g :: gs := by
  cases hst with
  | base => exact ⟨_, _, _, _, rfl, rfl⟩
  | cons h1 h2 h3 h4 h5 => exact ⟨_, _, _, _, rfl, rfl⟩

/-- the first frame is in the first segment -/
theorem Stk.head (hB : B.Ok) {data : List Nat} {f : MFrame} {fs M : List MFrame} (h : Stk strict units B mem st data (f :: fs) M) :
    ∃ b r, data = b :: r ∧ InSeg b f := by
  cases h with
  | base => exact hB.2.2.1
  | cons h1 h2 h3 h4 h5 => exact ⟨_, _, rfl, h1⟩

/-- running on after a return -/
theorem running_of (hB : B.Ok) {s : Mach W} {t : SMach W} {f g : MFrame} {L M : List MFrame} (hc : Common units B s t)
    (hst : Stk strict units B t.mem s.stack t.data (f :: L) (g :: M)) {v : MVal} (hv : Sane units v) (h1 : t.ctx = f) (h2 : s.ctx = g)
    (h3 : t.frames = L ++ B.F0) (h4 : s.frames = M ++ B.G0) (h5 : t.res = v) (h6 : s.res = v) :
    SEnded units B s t ∨ Active strict units B s t := by
  obtain ⟨r, hr⟩ := hc.2.2.1
  generalize hdat : t.data = data at hst
  cases hst with
  | base =>
    left
    exact ⟨hc, h1, h2, h3, h4, hdat, by rw [h5, h6], by rw [h6]; exact hv⟩
  | cons a1 a2 a3 a4 a5 =>
    right
    rw [hr] at hdat
    injection hdat with hb hr'
    subst hb hr' h1 h2
    exact ⟨⟨hc, L, M, _, h3, h4, a1.1, by have := a1.2.1; have := a1.2.2; omega, by rw [hr]; exact a3, a4, a5⟩, a1, a2,
      fun _ => ⟨by rw [h5, h6], by rw [h6]; exact hv⟩⟩

theorem seg_ret (hB : B.Ok) {x y : Nat} {s : Mach W} {t : SMach W} (h : SPend strict units B x y s t) {v : MVal} (hv : Sane units v) :
    ∃ s1, s.ret v = some s1 ∧ (strict → ∃ t1, t.ret v = some t1) ∧
      ∀ t1, t.ret v = some t1 → SEnded units B s1 t1 ∨ Active strict units B s1 t1 := by
  obtain ⟨hc, L, M, data', hL, hM, hx, hx', hu, hy, hst⟩ := h
  obtain ⟨f, fs, g, gs, rfl, rfl⟩ := under_ne (b := 0) (r := []) (x := 0) hst
  have hthere := common_there hB hc
  have hc' := hc
  obtain ⟨c1, c2, ⟨r, hr⟩, c4, ⟨new, hd, hh⟩, c6, c7, c8, c9⟩ := hc
  rw [List.cons_append] at hL hM
  refine ⟨_, by rw [Mach.ret, hM], ?_⟩
  rw [hr, List.tail_cons] at hu
  rw [SMach.ret, hL]
  simp only
  obtain ⟨b', r', hd', hin⟩ := hst.head hB
  obtain ⟨i1, i2, i3⟩ := hin
  rcases hu with ⟨rfl, hl⟩ | ⟨hsuf, hstr⟩
  · injection hd' with hb' hr'
    subst hb' hr'
    rw [if_neg (by omega)]
    refine ⟨fun _ => ⟨_, rfl⟩, fun t1 ht1 => ?_⟩
    cases ht1
    exact running_of hB hc' (by show Stk strict units B t.mem s.stack t.data (f :: fs) (g :: gs); rw [hr]; exact hst) hv rfl rfl rfl rfl rfl rfl
  · subst hd'
    have hb'r : b' ∈ r := hsuf.subset (by simp)
    have hout : f.sp < t.begin_ ∨ t.end_ ≤ f.sp := by
      rw [c4]
      by_cases h : f.sp < t.begin_ ∨ t.begin_ + 256 ≤ f.sp
      · exact h
      · have := apart_eq c7 (hthere b' (by rw [hr]; simp [hb'r])) (hthere t.begin_ (by rw [hr]; simp)) (p := f.sp) (by omega) i3 (by omega) (by omega)
        subst this
        rw [hr] at c6
        exact absurd hb'r (List.nodup_cons.mp c6).1
    rw [if_pos hout]
    simp only [SMach.dropSegment, hr]
    cases r with
    | nil => simp at hb'r
    | cons b2 r2 =>
      simp only [if_true]
      -- the segment that is freed was allocated in this run
      obtain ⟨new', rfl⟩ : ∃ new', new = t.begin_ :: new' := by
        cases new with
        | nil =>
          simp only [List.nil_append] at hd
          exact absurd (hr ▸ hd) (suffix_short hst.suffix hsuf)
        | cons c new =>
          rw [hr] at hd
          injection hd with hd _
          exact ⟨new, by rw [hd]⟩
      refine ⟨fun hs => ?_, fun t1 ht1 => ?_⟩
      · obtain ⟨hs, _⟩ := hstr hs
        injection hs with hs1 hs2
        subst hs1
        rw [if_pos ⟨by omega, i3⟩]
        exact ⟨_, rfl⟩
      · split at ht1
        · rename_i hin2
          cases ht1
          have hbb := apart_eq c7 (hthere b' (by rw [hr]; simp [hb'r])) (hthere b2 (by rw [hr]; simp)) (p := f.sp) (by omega) i3 hin2.1 hin2.2
          subst hbb
          have hnd : (b' :: r2).Nodup := by rw [hr] at c6; exact (List.nodup_cons.mp c6).2
          have hdat : b' :: r' = b' :: r2 := by
            rcases List.suffix_cons_iff.mp hsuf with h | h
            · exact h
            · exact absurd (h.subset (by simp)) (List.nodup_cons.mp hnd).1
          have herase : t.heap.erase t.begin_ = new' ++ B.heap0 := by rw [hh]; simp
          rw [hdat] at hst
          refine running_of hB (L := fs) (M := gs) (f := f) (g := g) ⟨c1, c2, ⟨r2, rfl⟩, rfl, ⟨new', ?_, herase⟩, hnd, ?_, c8, c9⟩ hst hv rfl rfl rfl rfl rfl rfl
          · rw [hr, List.cons_append] at hd
            injection hd
          · show List.Pairwise _ (t.heap.erase t.begin_)
            rw [herase]
            rw [hh, List.cons_append] at c7
            exact (List.pairwise_cons.mp c7).2
        · simp at ht1

/-! ### calling -/

theorem mem_readAt {a n : Nat} {v : MVal} (h : v ∈ readAt mem a n) : ∃ i < n, v = mem (a + i) := by
  simp only [readAt, List.mem_map, List.mem_range] at h
  obtain ⟨i, hi, rfl⟩ := h
  exact ⟨i, hi, rfl⟩

theorem valid_of {t : SMach W} {b : Nat} (hb : b ∈ t.heap) {p : Nat} (h1 : b ≤ p) (h2 : p < b + 256) : t.valid p = true := by
  simp only [SMach.valid, List.any_eq_true, Bool.and_eq_true, decide_eq_true_eq]
  exact ⟨b, hb, h1, h2⟩

theorem active_frameOk (hB : B.Ok) {s : Mach W} {t : SMach W} (h : Active strict units B s t) : t.frameOk = true := by
  obtain ⟨⟨hc, _⟩, ⟨h1, h2, h3⟩, _⟩ := h
  have hthere := common_there hB hc
  obtain ⟨r, hr⟩ := hc.2.2.1
  simp only [SMach.frameOk, List.all_eq_true, List.mem_range]
  intro i hi
  exact valid_of (hthere t.begin_ (by rw [hr]; simp)) (by omega) (by omega)

/-- the registers of the frame of a function that is called -/
theorem fr_enter {f : MVal} (hf : Sane units f) {args : List MVal} (hn : f.arity = some args.length) (ha : ∀ v ∈ args, Sane units v)
    (mem st : Nat → MVal) (x y : Nat) :
    Fr units (storeAt mem x (f :: args)) (storeAt st y (f :: args)) ⟨fnOf f, 0, x, x + nframeOf f⟩ ⟨fnOf f, 0, y, y + nframeOf f⟩ := by
  refine ⟨nframeOf f, args.length + 1, rfl, rfl, rfl, rfl, ?_, fun i hi => ?_⟩
  · simp only [storeAt_head]
    exact needs_enter hf hn
  · have hl : i < (f :: args).length := by simpa using hi
    simp only [storeAt_in hl, true_and]
    intro h0
    obtain ⟨j, rfl⟩ : ∃ j, i = j + 1 := ⟨i - 1, by omega⟩
    simp only [List.getElem_cons_succ]
    exact ha _ (List.getElem_mem _)

theorem seg_enter (hB : B.Ok) {malloc : List Nat → Nat} (hm : Fresh malloc) {s : Mach W} {t : SMach W}
    (h : SPend strict units B t.ctx.sp s.ctx.sp s t) {f : MVal} (hf : Sane units f) {args : List MVal} (hn : f.arity = some args.length)
    (ha : ∀ v ∈ args, Sane units v) : ∃ t1, t.enter malloc f args = some t1 ∧ Active strict units B (s.enter f args) t1 := by
  obtain ⟨hn1, hn2⟩ := sane_frame hf hn
  have h' := h
  obtain ⟨hc, L, M, data', hL, hM, hx, hx', hu, hy, hst⟩ := h
  have hthere := common_there hB hc
  obtain ⟨c1, c2, ⟨r, hr⟩, c4, ⟨new, hd, hh⟩, c6, c7, c8, c9⟩ := hc
  simp only [SMach.enter, SMach.alloc, Option.bind_eq_bind]
  rw [if_neg (by omega)]
  by_cases hfit : t.ctx.sp + nframeOf f < t.end_
  · rw [if_pos hfit]
    simp only [Option.bind_some, SMach.store]
    rw [if_pos (by
      simp only [List.all_eq_true, List.mem_range, List.length_cons]
      intro i hi
      exact valid_of (b := t.begin_) (hthere _ (by rw [hr]; simp)) (by omega) (by omega))]
    refine ⟨_, rfl, ?_⟩
    have hw := pend_write hB h' (mem' := storeAt t.mem t.ctx.sp (f :: args)) (st' := storeAt s.stack s.ctx.sp (f :: args))
      (fun p _ hp => storeAt_out (by simp only [List.length_cons]; omega)) (fun p hp => storeAt_out (.inl hp))
    exact ⟨hw, ⟨hx, by simp, by simp only; omega⟩, fr_enter hf hn ha _ _ _ _, fun h => absurd rfl h⟩
  · rw [if_neg hfit, if_pos hn2]
    simp only [Option.bind_some, SMach.store, SMach.newSegment]
    rw [if_pos (by
      simp only [List.all_eq_true, List.mem_range, List.length_cons]
      intro i hi
      exact valid_of (b := malloc t.heap) (by simp) (by omega) (by omega))]
    refine ⟨_, rfl, ?_⟩
    have hfresh := hm t.heap
    have hnot : malloc t.heap ∉ t.heap := fun hin => by have := hfresh _ hin; unfold Apart at this; omega
    have hp : SPend strict units B (malloc t.heap) s.ctx.sp s (t.newSegment malloc) := by
      refine ⟨⟨c1, c2, ⟨t.data, rfl⟩, rfl, ⟨malloc t.heap :: new, ?_, ?_⟩, ?_, ?_, c8, c9⟩, L, M, data', hL, hM, Nat.le_refl _, by simp only [SMach.newSegment]; omega, ?_, hy, hst⟩
      · simp only [SMach.newSegment, List.cons_append, hd]
      · simp only [SMach.newSegment, List.cons_append, hh]
      · exact List.nodup_cons.mpr ⟨fun hin => hnot (hthere _ hin), c6⟩
      · exact List.pairwise_cons.mpr ⟨hfresh, c7⟩
      · right
        rw [hr, List.tail_cons] at hu
        simp only [SMach.newSegment, List.tail_cons]
        rcases hu with ⟨rfl, _⟩ | ⟨hsuf, hstr⟩
        · exact ⟨hr ▸ List.suffix_refl _, fun _ => ⟨hr.symm, trivial⟩⟩
        · refine ⟨?_, fun hs => ?_⟩
          · rw [hr]; exact hsuf.trans (List.suffix_cons _ _)
          · obtain ⟨_, hxb⟩ := hstr hs
            omega
    have hw := pend_write hB hp (mem' := storeAt t.mem (malloc t.heap) (f :: args)) (st' := storeAt s.stack s.ctx.sp (f :: args))
      (fun p _ hp => storeAt_out (by simp only [SMach.newSegment, List.length_cons] at hp ⊢; omega)) (fun p hp => storeAt_out (.inl hp))
    exact ⟨hw, ⟨Nat.le_refl _, by simp, by simp only; omega⟩, fr_enter hf hn ha _ _ _ _, fun h => absurd rfl h⟩

/-! ### blocks -/

theorem fr_regs {f g : MFrame} {k : Nat} (h : ∀ i < k + 1, mem (f.bp + i) = st (g.bp + i) ∧ (0 < i → Sane units (mem (f.bp + i)))) :
    readAt st (g.bp + 1) k = readAt mem (f.bp + 1) k ∧ ∀ v ∈ readAt mem (f.bp + 1) k, Sane units v := by
  refine ⟨?_, fun v hv => ?_⟩
  · unfold readAt
    apply List.map_congr_left
    intro i hi
    have := (h (i + 1) (by simpa using hi)).1
    rw [show g.bp + 1 + i = g.bp + (i + 1) by omega, show f.bp + 1 + i = f.bp + (i + 1) by omega, this]
  · obtain ⟨i, hi, rfl⟩ := mem_readAt hv
    rw [show f.bp + 1 + i = f.bp + (i + 1) by omega]
    exact (h (i + 1) (by omega)).2 (by omega)

theorem zip_sane {xs : List Spec.Lang.Sym} {vs : List MVal} (h : ∀ v ∈ vs, Sane units v) : ∀ q ∈ xs.zip vs, Sane units q.2 := by
  intro q hq
  exact h _ (List.of_mem_zip hq).2

/-- what is left to do after a block -/
theorem after_sim (hB : B.Ok) {s : Mach W} {t : SMach W} (h : Active strict units B s t) {u l : Nat} {code : List Lam} {lam : Lam}
    (hfn : t.ctx.fn = .code u l) (hu : units[u]? = some code) (hl : code[l]? = some lam) (hgood : GoodLam code lam) {k : CStm}
    (hk : k ∈ lam.pieces) {w' : CWorld MCode W} (hw : SaneWorld units w') {e : Exit} (he : ExitOk units k.calls e) :
    PAct strict units B (s.after (w', e)).2 (s.after (w', e)).1 (t.put (t.view.after (w', e)).1) ∧
      (t.view.after (w', e)).2 = (s.after (w', e)).2 := by
  obtain ⟨hp, hin, hfr, hres⟩ := h
  have hpw : SPend strict units B t.ctx.bp s.ctx.bp { s with world := w' } { t with world := w' } := by
    obtain ⟨⟨c1, c2, c3⟩, h⟩ := hp
    exact ⟨⟨rfl, hw, c3⟩, h⟩
  cases e with
  | ret v => exact ⟨⟨he, _, _, hpw⟩, rfl⟩
  | tail g vs => exact ⟨⟨he.1, he.2, hpw⟩, rfl⟩
  | call label us g vs =>
    obtain ⟨⟨live, hlive, hlen⟩, hus, hg, hvs⟩ := he
    obtain ⟨h0, c, hc, rfl⟩ := hgood.1.linked k hk label live hlive
    obtain ⟨size, k', a1, a2, a3, a4, a5, a6⟩ := hfr
    have hroom : c.live.length < size ∧ lam.params.length < size ∧ (∀ c ∈ lam.conts, c.live.length < size) ∧
        ∀ x ∈ capturedOf (t.mem t.ctx.bp), Sane units x := by
      rw [hfn] at a5
      cases a5 with
      | code b1 b2 b3 b4 b5 b6 =>
        rw [hu] at b1; cases b1
        rw [hl] at b2; cases b2
        exact ⟨b4 c (List.mem_of_getElem? hc), b3, b4, b6⟩
    obtain ⟨hin1, hin2, hin3⟩ := hin
    have hkk := a5.le
    have hpm := pend_write hB hpw (mem' := storeAt t.mem (t.ctx.bp + 1) us) (st' := storeAt s.stack (s.ctx.bp + 1) us)
      (fun p _ hp => storeAt_out (by simp only at hp; omega)) (fun p hp => storeAt_out (by omega))
    have hmem0 : storeAt t.mem (t.ctx.bp + 1) us t.ctx.bp = t.mem t.ctx.bp := storeAt_out (by omega)
    have hst0 : storeAt s.stack (s.ctx.bp + 1) us s.ctx.bp = s.stack s.ctx.bp := storeAt_out (by omega)
    have hfr' : Fr units (storeAt t.mem (t.ctx.bp + 1) us) (storeAt s.stack (s.ctx.bp + 1) us) { t.ctx with label := label }
        { s.ctx with label := label } := by
      refine ⟨size, us.length + 1, a1, rfl, a3, a4, ?_, fun i hi => ?_⟩
      · simp only [hmem0, hfn]
        exact .code hu hl hroom.2.1 hroom.2.2.1 (.inr ⟨label - 1, c, by omega, hc, by rw [hlen]⟩) hroom.2.2.2
      · simp only
        cases i with
        | zero => exact ⟨by simp only [Nat.add_zero, hmem0, hst0]; simpa using (a6 0 (by omega)).1, by simp⟩
        | succ i =>
          rw [show t.ctx.bp + (i + 1) = t.ctx.bp + 1 + i by omega, show s.ctx.bp + (i + 1) = s.ctx.bp + 1 + i by omega,
            storeAt_in (by omega), storeAt_in (by omega)]
          exact ⟨rfl, fun _ => hus _ (List.getElem_mem _)⟩
    refine ⟨⟨hg, hvs, ?_⟩, rfl⟩
    obtain ⟨hcom, L, M, data', hL, hM, hx, hx', hund, hy, hst⟩ := hpm
    obtain ⟨r, hr⟩ := hcom.2.2.1
    simp only at hr
    have hne := hfr'.noExit
    refine ⟨hcom, { t.ctx with label := label } :: L, { s.ctx with label := label } :: M, t.begin_ :: r, ?_, ?_, ?_, ?_, ?_, ?_, ?_⟩
    · show _ :: t.frames = _
      rw [List.cons_append, ← hL]; rfl
    · show _ :: s.frames = _
      rw [List.cons_append, ← hM]
    · show t.begin_ ≤ t.ctx.sp
      omega
    · exact hin3
    · left
      refine ⟨by show _ = t.begin_ :: t.data.tail; rw [hr]; rfl, ?_⟩
      simp only [limHead]
      rw [lim_sp hne.1]
      exact Nat.le_refl _
    · simp only [limHead]
      rw [lim_sp hne.2]
      exact Nat.le_refl _
    · exact .cons ⟨hin1, hin2, hin3⟩ hfr' (by simp only [hr, List.tail_cons] at hund; exact hund) hy hst

theorem block_sim' {O : Outside W} (hB : B.Ok) (hU : UnitsOk units) (hO : KeepsSane O) {s : Mach W} {t : SMach W}
    (h : Active strict units B s t) {u l : Nat} (hfn : t.ctx.fn = .code u l) :
    ∃ code lam, s.ctx.fn = .code u l ∧ units[u]? = some code ∧ code[l]? = some lam ∧
      ((lam.block O u s = none ∧ lam.block O u t.view = none) ∨
        ∃ s1 tv a, lam.block O u s = some (s1, a) ∧ lam.block O u t.view = some (tv, a) ∧ PAct strict units B a s1 (t.put tv)) := by
  have h' := h
  obtain ⟨⟨⟨c1, c2, _⟩, _⟩, _, ⟨size, k, a1, a2, a3, a4, a5, a6⟩, hres⟩ := h
  have hk0 := a5.le.1
  rw [hfn] at a5
  generalize hv : t.mem t.ctx.bp = v at a5
  generalize hlab : t.ctx.label = lab at a5 a2 hres
  cases a5 with
  | @code _ _ _ _ _ _ code lam b1 b2 b3 b4 b5 b6 =>
    have hsm := hU code (List.mem_of_getElem? b1)
    have hgood := hsm.2 lam (List.mem_of_getElem? b2)
    have hcap : capturedOf (s.stack s.ctx.bp) = capturedOf v := by
      have := (a6 0 hk0).1
      simp only [Nat.add_zero] at this
      rw [← this, hv]
    refine ⟨code, lam, by rw [a1, hfn], b1, b2, ?_⟩
    -- the block and its variables
    obtain ⟨body, env, hbody, he, hs1, ht1⟩ : ∃ body env, body ∈ lam.pieces ∧ (∀ q ∈ env, Sane units q.2) ∧
        lam.block O u s = execC O u body env s ∧ lam.block O u t.view = execC O u body env t.view := by
      rcases b5 with ⟨rfl, rfl⟩ | ⟨i, c, rfl, hc, rfl⟩
      · obtain ⟨r1, r2⟩ := fr_regs a6
        refine ⟨lam.body, (lam.params.zip (readAt t.mem (t.ctx.bp + 1) lam.params.length)).reverse, by simp [Lam.pieces], ?_, ?_, ?_⟩
        · intro q hq
          exact zip_sane r2 q (by simpa using hq)
        · simp only [Lam.block, a2, r1]
        · simp only [Lam.block, SMach.view, hlab]
      · obtain ⟨r1, r2⟩ := fr_regs a6
        obtain ⟨q1, q2⟩ := hres (by omega)
        refine ⟨c.body, (c.val, s.res) :: c.live.zip (readAt t.mem (t.ctx.bp + 1) c.live.length),
          by simp only [Lam.pieces, List.mem_cons, List.mem_map]; exact .inr ⟨c, List.mem_of_getElem? hc, rfl⟩, ?_, ?_, ?_⟩
        · intro q hq
          rcases List.mem_cons.mp hq with rfl | hq
          · exact q2
          · exact zip_sane r2 q hq
        · simp only [Lam.block, a2, hc, r1]
        · simp only [Lam.block, SMach.view, hlab, hc, q1]
    rw [hs1, ht1, execC_outcome, execC_outcome, hcap, show t.view.world = s.world from c1,
      show capturedOf (t.view.stack t.view.ctx.bp) = capturedOf v by simp only [SMach.view, hv]]
    cases ho : outcome O u (capturedOf v) body env s.world with
    | none => exact .inl ⟨rfl, rfl⟩
    | some p =>
      obtain ⟨w', e⟩ := p
      obtain ⟨hw, hex⟩ := outcome_sane hO b1 hsm.1 b6 body (hgood.2 body hbody) env s.world he c2 ho
      obtain ⟨hp, ha⟩ := after_sim hB h' hfn b1 b2 hgood hbody hw hex
      exact .inr ⟨(s.after (w', e)).1, (t.view.after (w', e)).1, (s.after (w', e)).2, rfl, by simp only [Option.map_some, ← ha], hp⟩

/-- partial applications -/
theorem curry_sim (hB : B.Ok) {s : Mach W} {t : SMach W} (h : Active strict units B s t) (hfn : t.ctx.fn = .curry) :
    s.ctx.fn = .curry ∧ ∃ s1 tv, curryBlock s = some s1 ∧ curryBlock t.view = some tv ∧ Active strict units B s1 (t.put tv) := by
  obtain ⟨hp, hin, ⟨size, k, a1, a2, a3, a4, a5, a6⟩, hres⟩ := h
  refine ⟨by rw [a1, hfn], ?_⟩
  have hk0 := a5.le.1
  rw [hfn] at a5
  generalize hv : t.mem t.ctx.bp = v at a5
  cases a5 with
  | @curry f got n _ b1 b2 =>
    have hst0 : s.stack s.ctx.bp = .pap f got := by
      have := (a6 0 hk0).1
      simp only [Nat.add_zero] at this
      rw [← this, hv]
    obtain ⟨r1, r2⟩ := fr_regs a6
    refine ⟨{ s with
        stack := storeAt s.stack s.ctx.bp (f :: got ++ readAt t.mem (t.ctx.bp + 1) n)
        ctx := { s.ctx with fn := fnOf f, label := 0 } }, { t.view with
        stack := storeAt t.mem t.ctx.bp (f :: got ++ readAt t.mem (t.ctx.bp + 1) n)
        ctx := { t.ctx with fn := fnOf f, label := 0 } }, by simp only [curryBlock, hst0, b2, r1],
      by simp only [curryBlock, SMach.view, hv, b2], ?_⟩
    have hfrm := sane_frame b1 b2
    simp only [nframeOf] at hfrm
    have hsf : Sane units f ∧ (∀ v ∈ got, Sane units v) ∧ ∃ m, f.arity = some m ∧ got.length < m := by
      cases b1 with | pap p1 p2 p3 p4 p5 => exact ⟨p1, p2, _, p3, p5⟩
    obtain ⟨hsf, hsg, m, hm, hgl⟩ := hsf
    have hnm : n = m - got.length := by
      simp only [CVal.arity, hm, Option.map_some, Option.some.injEq] at b2
      exact b2.symm
    have hargs : f.arity = some (got ++ readAt t.mem (t.ctx.bp + 1) n).length := by
      rw [hm]; simp [readAt]; omega
    have hfm := sane_frame hsf hm
    have hall : ∀ v ∈ got ++ readAt t.mem (t.ctx.bp + 1) n, Sane units v := by
      intro v hv
      rcases List.mem_append.mp hv with hv | hv
      · exact hsg v hv
      · exact r2 v hv
    have hlen : (f :: got ++ readAt t.mem (t.ctx.bp + 1) n).length = m + 1 := by simp [readAt]; omega
    obtain ⟨hin1, hin2, hin3⟩ := hin
    have hw := pend_write hB hp (mem' := storeAt t.mem t.ctx.bp (f :: got ++ readAt t.mem (t.ctx.bp + 1) n))
      (st' := storeAt s.stack s.ctx.bp (f :: got ++ readAt t.mem (t.ctx.bp + 1) n))
      (fun p _ hp => storeAt_out (by rw [hlen]; omega)) (fun p hp => storeAt_out (.inl hp))
    have hfr := fr_enter hsf hargs hall t.mem s.stack t.ctx.bp s.ctx.bp
    rw [← a3, ← a4] at hfr
    exact ⟨hw, ⟨hin1, hin2, hin3⟩, hfr, fun h => absurd rfl h⟩

end

end Cora.Compile
