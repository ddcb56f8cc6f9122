import Verif.Lemmas.VM
/-
C23-C28: the virtual machine (calls, returns, currying, tail calls, delimited control, roots, `apply`) against the
abstract machine of Spec/Machine.lean, in which every activation owns its registers.
-/
open Spec.Machine
namespace Cora.VM

variable {W : Type}

/-! ### what the machine shows -/

/-- a frame of the call stack shows an activation of the abstract machine: same code, same label, and its slots hold
the registers of the activation; the frame of a `try` holds its handler in slot 2 -/
def Shows (mem : Nat → Val) (f : Frame) : AFrame → Prop
  | .code c l regs => f.fn = some c ∧ f.label = l ∧ readMem mem f.bp (f.sp - f.bp) = regs
  | .rest _ => f.fn = none
  | .exit => f.fn = none
  | .handler h => f.fn = some .tryCatch ∧ f.label = 1 ∧ f.sp = f.bp + 3 ∧ mem (f.bp + 2) = h

/-- frame by frame -/
def ShowsAll (mem : Nat → Val) : List Frame → List AFrame → Prop
  | [], [] => True
  | f :: fs, a :: as => Shows mem f a ∧ ShowsAll mem fs as
  | _, _ => False

/-- the pending arguments of an abstract stack, innermost first -/
def pending : List AFrame → List (List Val)
  | [] => []
  | .rest args :: as => args :: pending as
  | _ :: as => pending as

/-- a state of the virtual machine shows a state of the abstract one: the current frame and all suspended ones hold the
registers of the activations, the current frame lies in the current segment, which is allocated, results, world and
pending arguments agree, and a captured continuation that was not resumed yet holds the
registers of the activations it stands for and their handler -/
structure View (c : Cora W) (a : ASt W) : Prop where
  frames : ShowsAll c.mem (c.ctx :: c.callstack) (a.cur :: a.stack)
  segment : c.begin_ ≤ c.ctx.bp ∧ c.ctx.bp ≤ c.ctx.sp ∧ c.ctx.sp < c.end_ ∧ c.end_ = c.begin_ + 256
  current : c.data.head? = some c.begin_ ∧ c.begin_ ∈ c.heap
  res : c.res = a.res
  w : c.w = a.w
  args : c.cstack = pending (a.cur :: a.stack)
  conts : ∀ (id : Nat) pre h, a.conts[id]? = some (some (pre, h)) →
    ∃ k, c.conts[id]? = some k ∧ ShowsAll c.mem k.1 (pre ++ [.handler h])

theorem Stk.view {strict : Prop} {mem : Nat → Val} {segs fs as ms cs} (h : Stk strict mem segs fs as ms cs) :
    ShowsAll mem fs as ∧ cs = pending as := by
  induction h with
  | code b r f fs c as ms cs segs' h1 h2 h3 h4 ih => exact ⟨⟨⟨h2, rfl, rfl⟩, ih.1⟩, ih.2⟩
  | rest b r f fs args as ms cs segs' h1 h2 h3 h4 h5 ih => exact ⟨⟨h2, ih.1⟩, by rw [pending, ih.2]⟩
  | exit b r f h1 h2 => exact ⟨⟨h2, trivial⟩, rfl⟩
  | handler b r fs h as ms cs h1 h2 ih => exact ⟨⟨⟨rfl, rfl, rfl, h1⟩, ih.1⟩, ih.2⟩

theorem Frag.view {strict : Prop} {mem : Nat → Val} {segs fs as h} (hf : Frag strict mem segs fs as h) :
    ShowsAll mem fs (as ++ [.handler h]) := by
  induction hf with
  | base t h h1 => exact ⟨⟨rfl, rfl, rfl, h1⟩, trivial⟩
  | code b r f fs c as h segs' h1 h2 h3 h4 ih => exact ⟨⟨h2, rfl, rfl⟩, ih⟩

theorem Rel.view {strict : Prop} {c : Cora W} {a : ASt W} (h : Rel strict c a) : View c a := by
  obtain ⟨r, hd⟩ := h.mem.seg
  have hv := h.stk.view
  obtain ⟨b, r', e1, e2⟩ := h.stk.head
  have hb : b = c.begin_ := by rw [hd] at e1; injection e1 with x _; exact x.symm
  subst hb
  refine ⟨hv.1, ⟨e2.1, e2.2.1, by rw [h.mem.end_eq]; exact e2.2.2, h.mem.end_eq⟩,
    ⟨by rw [hd]; rfl, h.mem.heap _ (by rw [hd]; simp)⟩, h.res.symm, h.w.symm, hv.2, ?_⟩
  intro id pre hh hid
  obtain ⟨k, k1, ⟨segs', k2, k3⟩, k4, k5⟩ := h.conts.frag id pre hh hid
  exact ⟨k, k1, k3.view⟩

/-! ### runs -/

/-- the state in which a program starts: one segment at `b`, the frame of the main function in it with the registers
`regs`, and under it the frame that ends the program -/
def boot (b n : Nat) (regs : List Val) (res : Val) (w : W) : Cora W where
  ctx := ⟨some (.user n), 0, b, b + regs.length⟩
  callstack := [⟨none, 0, b, b + regs.length⟩]
  begin_ := b
  end_ := b + 256
  data := [b]
  res := res
  trystack := []
  mem := fun p => regs.getD (p - b) .nil
  heap := [b]
  conts := []
  cstack := []
  w := w

/-- the same for the abstract machine -/
def aboot (n : Nat) (regs : List Val) (res : Val) (w : W) : ASt W := ⟨.code (.user n) 0 regs, res, [.exit], [], w⟩

theorem boot_rel (strict : Prop) (b n : Nat) (regs : List Val) (res : Val) (w : W) (h : regs.length < 256) :
    Rel strict (boot b n regs res w) (aboot n regs res w) := by
  refine ⟨?_, ⟨⟨[], rfl⟩, rfl, by simp [boot], by simp [boot], by simp [boot]⟩, ⟨rfl, ?_, ?_⟩, rfl, rfl⟩
  · have hs := Stk.exit (strict := strict) (mem := fun p => regs.getD (p - b) .nil) b [] ⟨none, 0, b, b + regs.length⟩
      ⟨Nat.le_refl _, Nat.le_add_right _ _, by simp; omega⟩ rfl
    have := Stk.code (strict := strict) (mem := fun p => regs.getD (p - b) .nil) b []
      ⟨some (.user n), 0, b, b + regs.length⟩ _ (.user n) _ _ _ [b]
      ⟨Nat.le_refl _, Nat.le_add_right _ _, by simp; omega⟩ rfl (Or.inl ⟨rfl, by simp [top]⟩) hs
    have hr : readMem (fun p => regs.getD (p - b) .nil) b (b + regs.length - b) = regs := by
      rw [Nat.add_sub_cancel_left]
      apply List.ext_getElem
      · simp [readMem]
      · intro i h1 h2
        simp [readMem, h2]
    simp only [hr] at this
    exact this
  · intro id pre hh he
    simp [aboot] at he
  · intro id id' p p' k k' _ he
    simp [aboot] at he

/-- `k` steps of the abstract machine -/
inductive AReach (sem : Sem W) : Nat → ASt W → ASt W → Prop where
  | zero (s : ASt W) : AReach sem 0 s s
  | succ (k : Nat) (s s' s'' : ASt W) : AReach sem k s s' → AStep sem s' s'' → AReach sem (k + 1) s s''

/-- the program has ended -/
theorem exit_stuck {sem : Sem W} {a a' : ASt W} (hc : a.cur = .exit) (h : AStep sem a a') : False := by
  cases h <;> simp_all

/-- a function or a partial application runs (not `try`, `apply`, `resume`, nor a result to be applied to pending
arguments), or the program has ended -/
def Plain (a : ASt W) : Prop :=
  (∃ n l regs, a.cur = .code (.user n) l regs) ∨ (∃ l regs, a.cur = .code .curry l regs) ∨ a.cur = .exit

/-- a run of the virtual machine follows the abstract machine for `k` steps, or to the point where the abstract
machine stops -/
def Follows (malloc : List Nat → Nat) (sem : Sem W) (c : Cora W) (a : ASt W) (k : Nat) : Prop :=
  (∃ c' a', runN malloc sem k c = some c' ∧ AReach sem k a a' ∧ View c' a') ∨
  (∃ j c' a', j < k ∧ runN malloc sem j c = some c' ∧ AReach sem j a a' ∧ View c' a' ∧ ¬ ∃ a'', AStep sem a' a'')

/-- C23 for programs made of functions, partial applications and calls, of any depth and with any number of segment
overflows: the virtual machine does exactly what the abstract machine does, in which every suspended caller keeps its
registers and its label. `_partial`: calls with more arguments than the function takes, `apply` and `try` are left to
`C23_control_partial`, because with them the statement is false (`C23_overapplication_traps`). -/
theorem C23_nesting_partial (malloc : List Nat → Nat) (hmal : ∀ h, ∀ s ∈ h, malloc h + 256 ≤ s ∨ s + 256 ≤ malloc h)
    (sem : Sem W) (b n : Nat) (regs : List Val) (res : Val) (w : W) (hregs : regs.length < 256)
    (hplain : ∀ k a, AReach sem k (aboot n regs res w) a → Plain a) (k : Nat) :
    Follows malloc sem (boot b n regs res w) (aboot n regs res w) k := by
  have key : ∀ k, (∃ c' a', runN malloc sem k (boot b n regs res w) = some c' ∧ AReach sem k (aboot n regs res w) a' ∧
      Rel True c' a') ∨ (∃ j c' a', j < k ∧ runN malloc sem j (boot b n regs res w) = some c' ∧
        AReach sem j (aboot n regs res w) a' ∧ View c' a' ∧ ¬ ∃ a'', AStep sem a' a'') := by
    intro k
    induction k with
    | zero => exact Or.inl ⟨_, _, rfl, .zero _, boot_rel True b n regs res w hregs⟩
    | succ k ih =>
      rcases ih with ⟨c', a', h1, h2, h3⟩ | ⟨j, c', a', hj, h1, h2, h3, h4⟩
      · by_cases hex : ∃ a'', AStep sem a' a''
        · obtain ⟨a'', ha''⟩ := hex
          have hp : AFrame.plain a'.cur := by
            rcases hplain k a' h2 with ⟨n, l, regs, hc⟩ | ⟨l, regs, hc⟩ | hc
            · rw [hc]; trivial
            · rw [hc]; trivial
            · exfalso
              exact exit_stuck hc ha''
          obtain ⟨c'', g1, g2⟩ := step_rel hmal h3 (fun _ => hp) ha''
          obtain ⟨a3, g3, g4⟩ := g2 (Or.inl trivial)
          exact Or.inl ⟨c'', a3, by unfold runN; rw [h1]; exact g1, .succ k _ _ _ h2 g3, g4⟩
        · exact Or.inr ⟨k, c', a', Nat.lt_succ_self k, h1, h2, h3.view, hex⟩
      · exact Or.inr ⟨j, c', a', Nat.lt_succ_of_lt hj, h1, h2, h3, h4⟩
  rcases key k with ⟨c', a', h1, h2, h3⟩ | h
  · exact Or.inl ⟨c', a', h1, h2, h3.view⟩
  · exact Or.inr h

/-- every state of a run in which no activation lies over more than one segment boundary is related to a state of the
abstract machine -/
theorem run_rel (malloc : List Nat → Nat) (hmal : ∀ h, ∀ s ∈ h, malloc h + 256 ≤ s ∨ s + 256 ≤ malloc h)
    (sem : Sem W) (b n : Nat) (regs : List Val) (res : Val) (w : W) (hregs : regs.length < 256)
    (hspan : ∀ k c, runN malloc sem k (boot b n regs res w) = some c → Spans c.data (c.ctx :: c.callstack)) (k : Nat) :
    (∃ c' a', runN malloc sem k (boot b n regs res w) = some c' ∧ AReach sem k (aboot n regs res w) a' ∧
      Rel False c' a') ∨ (∃ j c' a', j < k ∧ runN malloc sem j (boot b n regs res w) = some c' ∧
        AReach sem j (aboot n regs res w) a' ∧ Rel False c' a' ∧ ¬ ∃ a'', AStep sem a' a'') := by
  induction k with
  | zero => exact Or.inl ⟨_, _, rfl, .zero _, boot_rel False b n regs res w hregs⟩
  | succ k ih =>
    rcases ih with ⟨c', a', h1, h2, h3⟩ | ⟨j, c', a', hj, h1, h2, h3, h4⟩
    · by_cases hex : ∃ a'', AStep sem a' a''
      · obtain ⟨a'', ha''⟩ := hex
        obtain ⟨c'', g1, g2⟩ := step_rel hmal h3 (fun h => h.elim) ha''
        have hr : runN malloc sem (k + 1) (boot b n regs res w) = some c'' := by unfold runN; rw [h1]; exact g1
        obtain ⟨a3, g3, g4⟩ := g2 (Or.inr (hspan (k + 1) c'' hr))
        exact Or.inl ⟨c'', a3, hr, .succ k _ _ _ h2 g3, g4⟩
      · exact Or.inr ⟨k, c', a', Nat.lt_succ_self k, h1, h2, h3, hex⟩
    · exact Or.inr ⟨j, c', a', Nat.lt_succ_of_lt hj, h1, h2, h3, h4⟩

/-- C23 and C26 for all programs, with pending arguments, `apply`, `try`, `throw` and `resume`: the virtual machine does
what the abstract machine does as long as no activation comes to lie over more than one segment boundary. `_partial`:
without that condition the statement is false (`C26_try_at_boundary_traps`, `C25_apply_traps`,
`C23_overapplication_traps`). The abstract machine resumes a continuation at most once and throws only over suspended
code; beyond that see `C26_resume_twice` and `C26_throw_over_pending`. -/
theorem C23_control_partial (malloc : List Nat → Nat) (hmal : ∀ h, ∀ s ∈ h, malloc h + 256 ≤ s ∨ s + 256 ≤ malloc h)
    (sem : Sem W) (b n : Nat) (regs : List Val) (res : Val) (w : W) (hregs : regs.length < 256)
    (hspan : ∀ k c, runN malloc sem k (boot b n regs res w) = some c → Spans c.data (c.ctx :: c.callstack)) (k : Nat) :
    Follows malloc sem (boot b n regs res w) (aboot n regs res w) k := by
  rcases run_rel malloc hmal sem b n regs res w hregs hspan k with ⟨c', a', h1, h2, h3⟩ | ⟨j, c', a', hj, h1, h2, h3, h4⟩
  · exact Or.inl ⟨c', a', h1, h2, h3.view⟩
  · exact Or.inr ⟨j, c', a', hj, h1, h2, h3.view, h4⟩

/-! ### currying -/

theorem store_store {c : Cora W} (hm : Mem c) {s x : Nat} (hs : s ∈ c.heap) (hx : s ≤ x) {h f : Val} {a b : List Val}
    (hlen : x + (a.length + b.length + 1) ≤ s + 256) (ha : a ≠ []) :
    (((c.store x (h :: b)).bind fun c => (c.store (x + (a.length + 1)) b).bind fun c => c.store x (f :: a)) : Option (Cora W))
      = c.store x (f :: (a ++ b)) := by
  have hm' : ∀ mem', Mem { c with mem := mem' } := fun mem' => ⟨hm.seg, hm.end_eq, hm.nodup, hm.heap, hm.apart⟩
  have hal : 0 < a.length := by
    cases a with
    | nil => exact absurd rfl ha
    | cons _ _ => simp
  rw [store_ok hm (vs := h :: b) hs hx (by simp; omega)]
  simp only [Option.bind_some]
  have hst : ∀ mem' y vs, s ≤ y → y + vs.length ≤ s + 256 → Cora.store { c with mem := mem' } y vs =
      some { c with mem := fun p => if y ≤ p ∧ p < y + vs.length then vs.getD (p - y) .nil else mem' p } :=
    fun mem' y vs g1 g2 => store_ok (hm' mem') (s := s) hs g1 g2
  rw [hst _ _ b (by omega) (by omega)]
  simp only [Option.bind_some]
  rw [hst _ _ (f :: a) hx (by simp; omega), store_ok hm (vs := f :: (a ++ b)) hs hx (by simp; omega)]
  congr 1
  simp only [Cora.mk.injEq, true_and, and_true]
  funext p
  simp only [List.length_cons, List.length_append]
  by_cases h1 : x ≤ p ∧ p < x + (a.length + 1)
  · rw [if_pos h1, if_pos (by omega)]
    obtain ⟨i, rfl⟩ : ∃ i, p = x + i := ⟨p - x, by omega⟩
    rw [Nat.add_sub_cancel_left]
    have : f :: (a ++ b) = (f :: a) ++ b := rfl
    rw [this]
    have hi : i < (f :: a).length := by simp; omega
    rw [List.getD_eq_getElem?_getD, List.getD_eq_getElem?_getD, List.getElem?_append_left hi]
  · rw [if_neg h1]
    by_cases h2 : x + (a.length + 1) ≤ p ∧ p < x + (a.length + 1) + b.length
    · rw [if_pos h2, if_pos (by omega)]
      obtain ⟨i, rfl⟩ : ∃ i, p = x + (a.length + 1) + i := ⟨p - (x + (a.length + 1)), by omega⟩
      rw [Nat.add_sub_cancel_left]
      have : f :: (a ++ b) = (f :: a) ++ b := rfl
      rw [this]
      have e : x + (a.length + 1) + i - x = (f :: a).length + i := by simp; omega
      rw [e]
      rw [List.getD_eq_getElem?_getD, List.getD_eq_getElem?_getD, List.getElem?_append_right (Nat.le_add_right _ _),
        Nat.add_sub_cancel_left]
    · rw [if_neg h2, if_neg (by omega), if_neg (by omega)]

/-- the state can call: its current segment is the top one, allocated, and the stack pointer is in it -/
structure Ready (c : Cora W) : Prop where
  mem : Mem c
  lo : c.begin_ ≤ c.ctx.sp
  hi : c.ctx.sp < c.begin_ + 256

theorem alloc_desc {malloc : List Nat → Nat} (hmal : Fresh malloc) {c : Cora W} (h : Ready c) {nf : Nat} (h0 : 0 < nf)
    (hnf : nf < 256) : ∃ c1, stackAlloc malloc c nf = some c1 ∧ Mem c1 ∧ InSeg c1.begin_ c1.ctx ∧
      c1.ctx.sp = c1.ctx.bp + nf := by
  obtain ⟨hm, h1, h2⟩ := h
  obtain ⟨r, hd⟩ := hm.seg
  have hend := hm.end_eq
  by_cases hfit : c.ctx.sp + nf < c.end_
  · refine ⟨{ c with ctx := { c.ctx with bp := c.ctx.sp, sp := c.ctx.sp + nf } }, ?_, ⟨⟨r, hd⟩, hm.end_eq, hm.nodup,
      hm.heap, hm.apart⟩, ⟨h1, by simp, ?_⟩, rfl⟩
    · unfold stackAlloc; rw [if_neg (by omega), if_pos hfit]
    · simp only []
      omega
  · refine ⟨{ segmentStackAlloc malloc c with
        ctx := { c.ctx with bp := malloc c.heap, sp := malloc c.heap + nf } }, ?_, ?_, ?_, rfl⟩
    · unfold stackAlloc stackAllocSlowPath; rw [if_neg (by omega), if_neg hfit, if_pos hnf]; rfl
    · refine ⟨⟨c.data, rfl⟩, rfl, ?_, ?_, ?_⟩
      · show (malloc c.heap :: c.data).Nodup
        rw [List.nodup_cons]
        refine ⟨fun hin => ?_, hm.nodup⟩
        have := hmal c.heap _ (hm.heap _ hin)
        unfold Apart at this
        omega
      · intro s hs
        show s ∈ malloc c.heap :: c.heap
        rcases List.mem_cons.mp hs with e | hs
        · rw [e]; simp
        · exact List.mem_cons_of_mem _ (hm.heap s hs)
      · exact List.pairwise_cons.mpr ⟨hmal c.heap, hm.apart⟩
    · exact ⟨Nat.le_refl _, by simp, by show malloc c.heap + nf < malloc c.heap + 256; omega⟩

/-- entering a partial application and one step of `callCurry` is entering the function with all arguments, whatever
is done to the call stack in between -/
theorem enter_curry {malloc : List Nat → Nat} (hmal : Fresh malloc) (sem : Sem W) {c : Cora W} (h : Ready c) {code : Code}
    {nf req : Nat} {d a b : List Val} (ha : a ≠ []) (hab : a.length + b.length = req) (hnf : req + 1 ≤ nf)
    (hnf2 : nf < 256) (fs : List Frame → Nat → Nat → List Frame) (cs : List (List Val)) :
    ((enter malloc c (.native .curry nf (req - a.length) (.native code nf req d :: a)) b).bind fun c =>
      step malloc sem { c with callstack := fs c.callstack c.ctx.bp c.ctx.sp, cstack := cs })
    = (enter malloc c (.native code nf req d) (a ++ b)).map fun c =>
      { c with callstack := fs c.callstack c.ctx.bp c.ctx.sp, cstack := cs } := by
  obtain ⟨c1, e1, e2, e3, e4⟩ := alloc_desc hmal h (nf := nf) (by omega) hnf2
  obtain ⟨r, hd⟩ := e2.seg
  have i1 := e3.1
  have i2 := e3.2.1
  have i3 := e3.2.2
  have hb : c1.begin_ ∈ c1.heap := e2.heap _ (by rw [hd]; simp)
  have hss := store_store e2 hb i1 (h := .native .curry nf (req - a.length) (.native code nf req d :: a))
    (f := .native code nf req d) (a := a) (b := b) (by omega) ha
  unfold enter
  simp only [e1, Option.bind_eq_bind, Option.bind_some]
  have hm' : ∀ mem', Mem { c1 with mem := mem' } := fun mem' => ⟨e2.seg, e2.end_eq, e2.nodup, e2.heap, e2.apart⟩
  have hal : 0 < a.length := by
    cases a with
    | nil => exact absurd rfl ha
    | cons _ _ => simp
  have hs1 := store_ok e2 (vs := .native .curry nf (req - a.length) (.native code nf req d :: a) :: b) hb i1 (by simp; omega)
  have hpre := readMem_prefix (mem := c1.mem) (a := c1.ctx.bp) (n := nf)
    (vs := .native .curry nf (req - a.length) (.native code nf req d :: a) :: b) (by simp; omega)
  generalize (fun p => if c1.ctx.bp ≤ p ∧ p < c1.ctx.bp + (Val.native .curry nf (req - a.length) (.native code nf req d :: a) :: b).length
    then (Val.native .curry nf (req - a.length) (.native code nf req d :: a) :: b).getD (p - c1.ctx.bp) Val.nil
    else c1.mem p) = mem1 at hs1 hpre
  obtain ⟨junk, hj⟩ := hpre
  have hs2 := store_ok (hm' mem1) (s := c1.begin_) (a := c1.ctx.bp + (a.length + 1)) (vs := b) hb (by omega) (by omega)
  rw [hs1] at hss
  simp only [Option.bind_some] at hss
  rw [hs2] at hss
  simp only [Option.bind_some] at hss
  rw [hs1]
  simp only [Option.bind_some]
  generalize hmm2 : (fun p => if c1.ctx.bp + (a.length + 1) ≤ p ∧ p < c1.ctx.bp + (a.length + 1) + b.length
    then b.getD (p - (c1.ctx.bp + (a.length + 1))) Val.nil else mem1 p) = mem2 at hs2 hss
  have hs3 := store_ok (hm' mem2) (s := c1.begin_) (a := c1.ctx.bp) (vs := .native code nf req d :: a) hb i1 (by simp; omega)
  rw [hs3] at hss
  rw [← hss]
  unfold step
  simp only []
  unfold callCurry
  have hreg : Cora.regs ({ c1 with
      mem := mem1, ctx := { c1.ctx with fn := some Code.curry, label := 0 },
      callstack := fs c1.callstack c1.ctx.bp c1.ctx.sp, cstack := cs } : Cora W) =
      some (.native .curry nf (req - a.length) (.native code nf req d :: a) :: b ++ junk) := by
    unfold Cora.regs
    have hsz : c1.ctx.sp - c1.ctx.bp = nf := by omega
    simp only [hsz]
    rw [if_pos, hj]
    intro i hi
    exact (hm' mem1).valid (s := c1.begin_) hb (by omega) (by omega)
  rw [hreg]
  simp only [Option.bind_eq_bind, Option.bind_some, List.cons_append]
  rw [if_pos (by simp; omega)]
  have ht : (b ++ junk).take (req - a.length) = b := by
    rw [show req - a.length = b.length by omega]; simp
  rw [ht]
  have hmA : ∀ (mem' : Nat → Val) (ctx : Frame), Mem ({ c1 with
      mem := mem', ctx := ctx, callstack := fs c1.callstack c1.ctx.bp c1.ctx.sp, cstack := cs } : Cora W) :=
    fun mem' ctx => ⟨e2.seg, e2.end_eq, e2.nodup, e2.heap, e2.apart⟩
  rw [store_ok (hmA _ _) (s := c1.begin_) (vs := b) hb (by omega) (by omega)]
  simp only [Option.bind_some]
  rw [store_ok (hmA _ _) (s := c1.begin_) (vs := .native code nf req d :: a) hb (by omega)
    (by simp only [List.length_cons]; omega)]
  simp only [Option.bind_some, Option.map_some]
  rw [← hmm2]

theorem callN_exact {malloc : List Nat → Nat} {c : Cora W} {code : Code} {nf req : Nat} {d args : List Val}
    (h : args.length = req) (hnf : req ≤ nf) :
    callN malloc c (.native code nf req d) args = enter malloc c (.native code nf req d) args := by
  unfold callN
  by_cases h0 : args.length = 0
  · rw [if_pos h0]
    have := List.eq_nil_of_length_eq_zero h0
    subst this
    unfold coraCall0
    simp only []
    rw [if_neg]
    simp at h
    omega
  · rw [if_neg h0]
    by_cases h4 : args.length ≤ 4
    · rw [if_pos h4]
      unfold coraCall14
      simp only []
      rw [if_neg (by omega)]
    · rw [if_neg h4]
      unfold coraCall
      simp only []
      rw [if_neg (by omega), if_pos (by omega)]

theorem callN_over {malloc : List Nat → Nat} {c : Cora W} {code : Code} {nf req : Nat} {d args : List Val}
    (h : req < args.length) :
    callN malloc c (.native code nf req d) args =
      (enter malloc c (.native code nf req d) (args.take req)).map fun c =>
        { c with callstack := ⟨none, 0, c.ctx.bp, c.ctx.sp⟩ :: c.callstack, cstack := args.drop req :: c.cstack } := by
  have hc : coraCall malloc c (.native code nf req d) args = (enter malloc c (.native code nf req d) (args.take req)).map fun c =>
        { c with callstack := ⟨none, 0, c.ctx.bp, c.ctx.sp⟩ :: c.callstack, cstack := args.drop req :: c.cstack } := by
    unfold coraCall
    simp only []
    rw [if_pos (by omega)]
    unfold coraDispatch
    simp only []
    rw [if_neg (by omega)]
    cases enter malloc c (.native code nf req d) (args.take req) <;> rfl
  unfold callN
  rw [if_neg (by omega)]
  by_cases h4 : args.length ≤ 4
  · rw [if_pos h4]
    unfold coraCall14
    simp only []
    rw [if_pos (by omega)]
    exact hc
  · rw [if_neg h4]
    exact hc

theorem enter_cstack {malloc : List Nat → Nat} {c c' : Cora W} {f : Val} {args : List Val}
    (h : enter malloc c f args = some c') : c'.cstack = c.cstack := by
  unfold enter at h
  cases f with
  | native code nf req d =>
    simp only [Option.bind_eq_bind] at h
    cases ha : stackAlloc malloc c nf with
    | none => rw [ha] at h; simp at h
    | some c1 =>
      rw [ha] at h
      simp only [Option.bind_some] at h
      have h1 : c1.cstack = c.cstack := by
        unfold stackAlloc stackAllocSlowPath at ha
        split at ha
        · simp at ha
        · split at ha
          · injection ha with ha; rw [← ha]
          · split at ha
            · injection ha with ha; rw [← ha]; rfl
            · simp at ha
      unfold Cora.store at h
      split at h
      · simp only [Option.bind_some] at h
        injection h with h
        rw [← h]
        exact h1
      · simp at h
  | _ => simp at h

/-- the value of an application to too few arguments -/
def partialOf : Val → List Val → Val
  | .native code nf req d, a => .native .curry nf (req - a.length) (.native code nf req d :: a)
  | v, _ => v

/-- too few arguments: the caller gets back at once a function that waits for the others -/
theorem C24_too_few (malloc : List Nat → Nat) (c : Cora W) (code : Code) (nf req : Nat) (d a : List Val)
    (h : a.length < req) :
    callN malloc c (.native code nf req d) a =
      coraReturn c (if a = [] then .native code nf req d else partialOf (.native code nf req d) a) := by
  unfold callN
  by_cases h0 : a.length = 0
  · have := List.eq_nil_of_length_eq_zero h0
    subst this
    rw [if_pos h0, if_pos rfl]
    unfold coraCall0
    simp only []
    rw [if_pos (by omega)]
  · have hne : ¬ a = [] := fun he => h0 (by rw [he]; rfl)
    rw [if_neg h0, if_neg hne]
    have hc : coraCall malloc c (.native code nf req d) a = coraReturn c (partialOf (.native code nf req d) a) := by
      unfold coraCall
      simp only []
      rw [if_pos (by omega)]
      unfold coraDispatch makeCurry
      simp only []
      rw [if_pos h, if_pos h]
      rfl
    by_cases h4 : a.length ≤ 4
    · rw [if_pos h4]
      unfold coraCall14
      simp only []
      rw [if_pos (by omega)]
      exact hc
    · rw [if_neg h4]
      exact hc

/-- the arguments that were missing, maybe with more: the machine is after one step in the very state it would have
entered if all had been supplied at once -/
theorem C24_rest_of_arguments (malloc : List Nat → Nat)
    (hmal : ∀ h, ∀ s ∈ h, malloc h + 256 ≤ s ∨ s + 256 ≤ malloc h) (sem : Sem W) (c : Cora W) (h : Ready c) (code : Code)
    (nf req : Nat) (d a b : List Val) (ha : a ≠ []) (hlt : a.length < req) (hab : req ≤ a.length + b.length)
    (hnf : req + 1 ≤ nf) (hnf2 : nf < 256) :
    (callN malloc c (partialOf (.native code nf req d) a) b).bind (step malloc sem) =
      callN malloc c (.native code nf req d) (a ++ b) := by
  unfold partialOf
  simp only []
  by_cases he : a.length + b.length = req
  · rw [callN_exact (by omega) (by omega), callN_exact (by simp; omega) (by omega)]
    have := enter_curry hmal sem h (code := code) (d := d) ha he hnf hnf2 (fun fs _ _ => fs) c.cstack
    have hid : ∀ {f : Val} {args : List Val} (g : Cora W → Option (Cora W)), (enter malloc c f args).bind (fun c' => g { c' with cstack := c.cstack })
        = (enter malloc c f args).bind g := by
      intro f args g
      cases hx : enter malloc c f args with
      | none => rfl
      | some c' =>
        simp only [Option.bind_some]
        rw [← enter_cstack hx]
    have hid2 : ∀ {f : Val} {args : List Val}, (enter malloc c f args).map (fun c' => { c' with cstack := c.cstack })
        = enter malloc c f args := by
      intro f args
      cases hx : enter malloc c f args with
      | none => rfl
      | some c' =>
        simp only [Option.map_some]
        rw [← enter_cstack hx]
    rw [hid2] at this
    rw [← this]
    exact (hid _).symm
  · rw [callN_over (by omega), callN_over (by simp; omega)]
    have ht : b.take (req - a.length) = b.take (req - a.length) := rfl
    have hl : (b.take (req - a.length)).length = req - a.length := by simp; omega
    have h1 : (a ++ b).take req = a ++ b.take (req - a.length) := by
      rw [List.take_append, List.take_of_length_le (by omega)]
    have h2 : (a ++ b).drop req = b.drop (req - a.length) := by
      rw [List.drop_append, List.drop_of_length_le (by omega), List.nil_append]
    rw [h1, h2]
    have := enter_curry hmal sem h (code := code) (d := d) (b := b.take (req - a.length)) ha (by omega) hnf hnf2
      (fun fs bp sp => ⟨none, 0, bp, sp⟩ :: fs) (b.drop (req - a.length) :: c.cstack)
    have hcs : ∀ {f : Val} {args : List Val}, (enter malloc c f args).map (fun c' => ({ c' with
        callstack := ⟨none, 0, c'.ctx.bp, c'.ctx.sp⟩ :: c'.callstack, cstack := b.drop (req - a.length) :: c.cstack } : Cora W))
        = (enter malloc c f args).map (fun c' => ({ c' with
        callstack := ⟨none, 0, c'.ctx.bp, c'.ctx.sp⟩ :: c'.callstack, cstack := b.drop (req - a.length) :: c'.cstack } : Cora W)) := by
      intro f args
      cases hx : enter malloc c f args with
      | none => rfl
      | some c' =>
        simp only [Option.map_some]
        rw [← enter_cstack hx]
    rw [← hcs, ← hcs, ← this, Option.bind_map]
    rfl

theorem runN_succ (malloc : List Nat → Nat) (sem : Sem W) (n : Nat) (c : Cora W) :
    runN malloc sem (n + 1) c = (step malloc sem c).bind (runN malloc sem n) := by
  induction n with
  | zero =>
    show (some c).bind (step malloc sem) = (step malloc sem c).bind some
    simp
  | succ n ih =>
    rw [runN, ih]
    cases step malloc sem c with
    | none => rfl
    | some c' => rfl

/-- a function applied to several groups of arguments one after the other, none of them empty and together too few -/
def partialsOf (f : Val) (groups : List (List Val)) : Val := groups.foldl partialOf f

theorem partialsOf_native (code : Code) (nf req : Nat) (d : List Val) (groups : List (List Val)) :
    ∃ code' d', partialsOf (.native code nf req d) groups = .native code' nf (req - groups.flatten.length) d' := by
  induction groups generalizing code req d with
  | nil => exact ⟨code, d, rfl⟩
  | cons a gs ih =>
    obtain ⟨code', d', h⟩ := ih .curry (req - a.length) (.native code nf req d :: a)
    refine ⟨code', d', ?_⟩
    show partialsOf (partialOf (.native code nf req d) a) gs = _
    unfold partialOf
    simp only []
    rw [h]
    simp
    omega

/-- C24: the arguments of a function may be supplied in any number of groups. Each group but the last only makes a new
function (`C24_too_few`); with the last group, which may contain more arguments than needed, the machine reaches after
one step per earlier group the very state it would have entered if all arguments had been supplied in one call. -/
theorem C24_grouping (malloc : List Nat → Nat)
    (hmal : ∀ h, ∀ s ∈ h, malloc h + 256 ≤ s ∨ s + 256 ≤ malloc h) (sem : Sem W) (c : Cora W) (h : Ready c) (code : Code)
    (nf req : Nat) (d : List Val) (groups : List (List Val)) (hne : ∀ g ∈ groups, g ≠ []) (last : List Val)
    (hlt : groups.flatten.length < req) (henough : req ≤ groups.flatten.length + last.length)
    (hnf : req + 1 ≤ nf) (hnf2 : nf < 256) :
    (callN malloc c (partialsOf (.native code nf req d) groups) last).bind (runN malloc sem groups.length) =
      callN malloc c (.native code nf req d) (groups.flatten ++ last) := by
  -- induction on the number of groups, removing the last one
  suffices H : ∀ n (groups : List (List Val)) last, groups.length = n → (∀ g ∈ groups, g ≠ []) →
      groups.flatten.length < req → req ≤ groups.flatten.length + last.length →
      (callN malloc c (partialsOf (.native code nf req d) groups) last).bind (runN malloc sem n) =
        callN malloc c (.native code nf req d) (groups.flatten ++ last) from H _ groups last rfl hne hlt henough
  intro n
  induction n with
  | zero =>
    intro groups last hl hne hlt hen
    have := List.eq_nil_of_length_eq_zero hl
    subst this
    show (callN malloc c (.native code nf req d) last).bind some = callN malloc c (.native code nf req d) last
    simp
  | succ n ih =>
    intro groups last hl hne hlt hen
    obtain ⟨gs, a, rfl⟩ : ∃ gs a, groups = gs ++ [a] := by
      have hgne : groups ≠ [] := by intro he; rw [he] at hl; simp at hl
      exact ⟨groups.dropLast, groups.getLast hgne, (List.dropLast_concat_getLast hgne).symm⟩
    have hl' : gs.length = n := by simpa using hl
    simp only [List.flatten_append, List.flatten_cons, List.flatten_nil, List.append_nil, List.length_append] at hlt hen ⊢
    have ha : a ≠ [] := hne a (by simp)
    have hal : 0 < a.length := by
      cases a with
      | nil => exact absurd rfl ha
      | cons _ _ => simp
    obtain ⟨code', d', hp⟩ := partialsOf_native code nf req d gs
    have hpp : partialsOf (.native code nf req d) (gs ++ [a]) = partialOf (partialsOf (.native code nf req d) gs) a := by
      unfold partialsOf; rw [List.foldl_append]; rfl
    have h1 := C24_rest_of_arguments malloc hmal sem c h code' nf (req - gs.flatten.length) d' a last ha (by omega) (by omega)
      (by omega) hnf2
    have h2 := ih gs (a ++ last) hl' (fun g hg => hne g (by simp [hg])) (by omega) (by rw [List.length_append]; omega)
    rw [hp] at h2
    rw [hpp, hp, List.append_assoc, ← h2, ← h1, Option.bind_assoc]
    congr 1
    funext c'
    exact runN_succ malloc sem n c'

/-! ### tail calls -/

/-- the current block ends in a tail call of a function with exactly its arguments -/
inductive TailCall (sem : Sem W) : Cora W → Prop where
  | mk (c : Cora W) (n : Nat) (r : List Val) (o : Out W) (code : Code) (nf req : Nat) (d args : List Val) :
      c.ctx.fn = some (.user n) → c.regs = some r → sem n c.ctx.label r c.res c.w = some o →
      o.term = .tail (.native code nf req d) args → args.length = req → req + 1 ≤ nf → nf < 256 → TailCall sem c

/-- the current block is that of a partial application, which goes on as the function it came from -/
def IsCurry (c : Cora W) : Prop := c.ctx.fn = some .curry

/-- `k` steps, all of them tail calls or entries of partial applications -/
inductive TailRun (malloc : List Nat → Nat) (sem : Sem W) : Nat → Cora W → Cora W → Prop where
  | zero (c : Cora W) : TailRun malloc sem 0 c c
  | succ (k : Nat) (c c' c'' : Cora W) : TailRun malloc sem k c c' → (TailCall sem c' ∨ IsCurry c') →
      step malloc sem c' = some c'' → TailRun malloc sem (k + 1) c c''

/-- what a loop of tail calls keeps: `base` is where its frames start -/
structure Loop (c0 c : Cora W) : Prop where
  callstack : c.callstack = c0.callstack
  mem : Mem c
  inseg : InSeg c.begin_ c.ctx
  place : (c.data = c0.data ∧ c.ctx.bp = c0.ctx.bp) ∨ (∃ s, c.data = s :: c0.data ∧ c.ctx.bp = s)

theorem store_some {c c' : Cora W} {x : Nat} {vs : List Val} (h : c.store x vs = some c') :
    ∃ mem', c' = { c with mem := mem' } := by
  unfold Cora.store at h
  split at h
  · injection h with h; exact ⟨_, h.symm⟩
  · simp at h

theorem loop_step {malloc : List Nat → Nat} (hmal : Fresh malloc) {sem : Sem W} {c0 c c' : Cora W} (h : Loop c0 c)
    (ht : TailCall sem c ∨ IsCurry c) (hs : step malloc sem c = some c') : Loop c0 c' := by
  obtain ⟨hcs, hm, hin, hplace⟩ := h
  obtain ⟨r0, hd⟩ := hm.seg
  have i1 := hin.1
  have i2 := hin.2.1
  have i3 := hin.2.2
  rcases ht with ht | ht
  · cases ht with
    | mk n r o code nf req d args hfn hr ho hterm hargs hnf hnf2 =>
      have hstep : step malloc sem c = userBlock malloc sem n c := by unfold step; rw [hfn]
      rw [hstep] at hs
      unfold userBlock at hs
      simp only [hr, ho, Option.bind_eq_bind, Option.bind_some, hterm] at hs
      split at hs
      · cases hst : c.store c.ctx.bp o.regs with
        | none => rw [hst] at hs; simp at hs
        | some c1 =>
          rw [hst] at hs
          obtain ⟨mem', rfl⟩ := store_some hst
          simp only [Option.bind_some] at hs
          rw [callN_exact hargs (by omega)] at hs
          have hm1 : Mem { c with mem := mem', w := o.w, ctx := { c.ctx with sp := c.ctx.bp } } :=
            ⟨⟨r0, hd⟩, hm.end_eq, hm.nodup, hm.heap, hm.apart⟩
          obtain ⟨c2, x, e1, e2, e3, e4, e5, e6, e7, e8, e9, e10, e11, e12, e13⟩ :=
            enter_desc (code := code) (req := req) (d := d) (args := args) hmal hm1 (by exact i1)
              (by show c.ctx.bp < c.begin_ + 256; omega) (by omega) hnf2
          rw [e1] at hs
          injection hs with hs
          subst hs
          refine ⟨e2.trans hcs, e9, e10, ?_⟩
          have hbp : c2.ctx.bp = x := by rw [e8]
          rw [hbp]
          rcases e11 with ⟨j1, j2, j3, j4⟩ | ⟨j1, j2, j3, j4, j5⟩
          · have j1' : c2.data = c.data := j1
            have j4' : x = c.ctx.bp := j4
            rw [j1', j4']
            exact hplace
          · have j1' : c2.data = x :: c.data := j1
            have j5' : c.begin_ + 256 ≤ c.ctx.bp + nf := j5
            rcases hplace with ⟨p1, p2⟩ | ⟨s, p1, p2⟩
            · exact Or.inr ⟨x, by rw [j1', p1], rfl⟩
            · exfalso
              have : s = c.begin_ := by rw [p1] at hd; injection hd
              omega
      · simp at hs
  · have hstep : step malloc sem c = callCurry c := by unfold step; rw [ht]
    rw [hstep] at hs
    unfold callCurry at hs
    simp only [Option.bind_eq_bind] at hs
    cases hr : c.regs with
    | none => rw [hr] at hs; simp at hs
    | some r =>
      rw [hr] at hs
      simp only [Option.bind_some] at hs
      split at hs
      · rename_i code' nf' required g got rest
        split at hs
        · split at hs
          · rename_i code _ _ _ _
            cases hst : c.store (c.ctx.bp + (got.length + 1)) (rest.take required) with
            | none => rw [hst] at hs; simp at hs
            | some c1 =>
              rw [hst] at hs
              obtain ⟨mem', rfl⟩ := store_some hst
              simp only [Option.bind_some] at hs
              generalize hst2 : Cora.store _ _ _ = o2 at hs
              cases o2 with
              | none => simp at hs
              | some c2 =>
                obtain ⟨mem2, rfl⟩ := store_some hst2
                simp only [Option.bind_some] at hs
                injection hs with hs
                subst hs
                exact ⟨hcs, ⟨⟨r0, hd⟩, hm.end_eq, hm.nodup, hm.heap, hm.apart⟩, hin, hplace⟩
          · simp at hs
        · simp at hs
      · simp at hs

/-- C25 for tail calls with exactly the arguments the function takes, or of partial applications: after any number of
them the call stack is the one the loop started with, and at most one segment is in use beyond those it started with:
the frame of the current iteration starts where the frame of the first one did, or at the start of that one segment.
`_partial`: tail calls with too many arguments or through `apply` do grow (`C25_apply_traps`,
`C23_overapplication_traps`). -/
theorem C25_tail_calls_partial (malloc : List Nat → Nat)
    (hmal : ∀ h, ∀ s ∈ h, malloc h + 256 ≤ s ∨ s + 256 ≤ malloc h) (sem : Sem W) (c0 c : Cora W) (hm : Mem c0)
    (hin : InSeg c0.begin_ c0.ctx) (k : Nat) (h : TailRun malloc sem k c0 c) :
    c.callstack = c0.callstack ∧
    ((c.data = c0.data ∧ c.ctx.bp = c0.ctx.bp) ∨ (∃ s, c.data = s :: c0.data ∧ c.ctx.bp = s)) ∧
    c.ctx.sp < c.begin_ + 256 ∧ c.data.length ≤ c0.data.length + 1 := by
  have hl : Loop c0 c := by
    induction h with
    | zero c => exact ⟨rfl, hm, hin, Or.inl ⟨rfl, rfl⟩⟩
    | succ k c c' c'' h1 h2 h3 ih => exact loop_step hmal (ih hm hin) h2 h3
  refine ⟨hl.callstack, hl.place, hl.inseg.2.2, ?_⟩
  rcases hl.place with ⟨h, _⟩ | ⟨s, h, _⟩
  · rw [h]; omega
  · rw [h]; simp

/-! ### try, throw, resume -/

theorem split_handler {pre pre' post post' : List AFrame} {h h' : Val} (e : pre ++ .handler h :: post = pre' ++ .handler h' :: post')
    (hp : ∀ f ∈ pre, f.isCode) (hp' : ∀ f ∈ pre', f.isCode) : pre = pre' ∧ h = h' ∧ post = post' := by
  induction pre generalizing pre' with
  | nil =>
    cases pre' with
    | nil => simp at e; exact ⟨rfl, e.1, e.2⟩
    | cons f r =>
      simp at e
      have := hp' f (by simp)
      rw [← e.1] at this
      exact this.elim
  | cons f r ih =>
    cases pre' with
    | nil =>
      simp at e
      have := hp f (by simp)
      rw [e.1] at this
      exact this.elim
    | cons f' r' =>
      simp only [List.cons_append, List.cons.injEq] at e
      obtain ⟨h1, h2, h3⟩ := ih e.2 (fun g hg => hp g (List.mem_cons_of_mem _ hg)) (fun g hg => hp' g (List.mem_cons_of_mem _ hg))
      exact ⟨by rw [e.1, h1], h2, h3⟩

/-- C26, throwing: `(throw v)` starts the handler of the innermost `try` with `v` and a function for resuming; what is
suspended then is what was suspended under that `try`, and the new continuation stands for everything above it. The
hypothesis on `c` and `a` holds in every state of a run (`run_rel`). `_partial`: `Spans` excludes frames
that cross a segment boundary alone (`C26_try_at_boundary_traps`), and no call with too many arguments may be pending
inside the `try` (`C26_throw_over_pending`). -/
theorem C26_throw_partial (malloc : List Nat → Nat) (hmal : ∀ h, ∀ s ∈ h, malloc h + 256 ≤ s ∨ s + 256 ≤ malloc h)
    (sem : Sem W) (c : Cora W) (a : ASt W) (hrel : Rel False c a) (self v : Val) (junk : List Val) (l : Nat)
    (pre post : List AFrame) (code : Code) (nf : Nat) (d : List Val) (hcur : a.cur = .code .throw l (self :: v :: junk))
    (hst : a.stack = pre ++ .handler (.native code nf 2 d) :: post) (hpre : ∀ f ∈ pre, f.isCode)
    (hnf : 3 ≤ nf) (hnf2 : nf < 256) :
    ∃ c', step malloc sem c = some c' ∧ (Spans c'.data (c'.ctx :: c'.callstack) → ∃ a' junk', View c' a' ∧
      a'.cur = .code code 0 (.native code nf 2 d :: v :: .native .resume 2 1 [.cont a.conts.length] :: junk') ∧
      a'.stack = post ∧ a'.conts = a.conts ++ [some (pre, .native code nf 2 d)] ∧ a'.w = a.w) := by
  have henter : Enter (.native code nf 2 d) [v, .native .resume 2 1 [.cont a.conts.length]]
      { a with stack := post, conts := a.conts ++ [some (pre, .native code nf 2 d)] } _ :=
    Enter.mk code nf 2 d (List.replicate (nf - 3) .nil) _ rfl rfl (by simp; omega) hnf2
  obtain ⟨c', h1, h2⟩ := throw_rel hmal (sem := sem) hrel hcur hst hpre (.exact _ _ _ _ henter)
  refine ⟨c', h1, fun hg => ?_⟩
  obtain ⟨a', h3, h4⟩ := h2 (Or.inr hg)
  cases h3 with
  | throw self' v' junk' pre' post' h' l' _ _ hc' hst' hpre' happ =>
    rw [hcur] at hc'
    injection hc' with _ _ hc'
    injection hc' with hc1 hc'
    injection hc' with hc2 hc3
    subst hc1 hc2 hc3
    obtain ⟨e1, e2, e3⟩ := split_handler (hst.symm.trans hst') hpre hpre'
    subst e1 e2 e3
    have he := applies_exact happ rfl
    cases he with
    | mk code1 nf1 req1 d1 junk1 _ hf =>
      injection hf with f1 f2 f3 f4
      subst f1 f2 f3 f4
      exact ⟨_, junk1, h4.view, rfl, rfl, rfl, rfl⟩
  | ret n l regs o v s s' hc => rw [hcur] at hc; simp at hc
  | tail n l regs o f args s s' hc => rw [hcur] at hc; simp at hc
  | call n l regs o l' f args s s' hc => rw [hcur] at hc; simp at hc
  | curry l nframe required g got args junk junk' c gn gr gd s hc => rw [hcur] at hc; simp at hc
  | try' self thunk h junk s s' hc => rw [hcur] at hc; simp at hc
  | handler h s s' hc => rw [hcur] at hc; simp at hc
  | resume nf nr id v junk pre h l s s' hc => rw [hcur] at hc; simp at hc
  | apply self f l args junk lbl s s' hc => rw [hcur] at hc; simp at hc
  | rest args s s' hc => rw [hcur] at hc; simp at hc

/-- C26, resuming: calling the resume function with `v` puts the captured activations, and the `try` with its handler
under them, back on what is suspended now, and the one that had called `throw` goes on with the result `v`. `_partial`:
each continuation at most once (`C26_resume_twice`), and `Spans` as before. -/
theorem C26_resume_partial (malloc : List Nat → Nat) (sem : Sem W) (c : Cora W) (a : ASt W) (hrel : Rel False c a) (v : Val)
    (junk : List Val) (l nf nr id : Nat) (pre : List AFrame) (h : Val)
    (hcur : a.cur = .code .resume l (.native .resume nf nr [.cont id] :: v :: junk))
    (hid : a.conts[id]? = some (some (pre, h))) :
    ∃ c', step malloc sem c = some c' ∧ (Spans c'.data (c'.ctx :: c'.callstack) → ∃ a', View c' a' ∧
      a'.cur :: a'.stack = pre ++ .handler h :: a.stack ∧ a'.res = v ∧ a'.w = a.w) := by
  obtain ⟨c', h1, h2⟩ := resume_rel (malloc := malloc) (sem := sem) (fun h => h) hrel hcur hid
  refine ⟨c', h1, fun hg => ?_⟩
  obtain ⟨a', h3, h4⟩ := h2 (Or.inr hg)
  cases h3 with
  | resume nf' nr' id' v' junk' pre' h' l' _ _ hc' hid' hret =>
    rw [hcur] at hc'
    injection hc' with _ _ hc'
    injection hc' with hc1 hc'
    injection hc' with hc2 hc3
    injection hc1 with _ _ _ hc4
    injection hc4 with hc5 _
    injection hc5 with hc6
    subst hc6 hc2
    rw [hid] at hid'
    injection hid' with hid'
    injection hid' with hid'
    injection hid' with e1 e2
    subst e1 e2
    cases hret with
    | mk f fs hst => exact ⟨_, h4.view, hst.symm, rfl, rfl⟩
  | ret n l regs o v s s' hc => rw [hcur] at hc; simp at hc
  | tail n l regs o f args s s' hc => rw [hcur] at hc; simp at hc
  | call n l regs o l' f args s s' hc => rw [hcur] at hc; simp at hc
  | curry l nframe required g got args junk junk' c gn gr gd s hc => rw [hcur] at hc; simp at hc
  | try' self thunk h junk s s' hc => rw [hcur] at hc; simp at hc
  | handler h s s' hc => rw [hcur] at hc; simp at hc
  | throw self v junk pre post h l s s' hc => rw [hcur] at hc; simp at hc
  | apply self f l args junk lbl s s' hc => rw [hcur] at hc; simp at hc
  | rest args s s' hc => rw [hcur] at hc; simp at hc

/-- C26, entering: `(try thunk h)` starts the thunk with the handler on top of what was suspended -/
theorem C26_try_partial (malloc : List Nat → Nat) (hmal : ∀ h, ∀ s ∈ h, malloc h + 256 ≤ s ∨ s + 256 ≤ malloc h)
    (sem : Sem W) (c : Cora W) (a : ASt W) (hrel : Rel False c a) (self h : Val) (junk : List Val) (code : Code) (nf : Nat)
    (d : List Val) (hcur : a.cur = .code .tryCatch 0 (self :: .native code nf 0 d :: h :: junk))
    (hnf : 1 ≤ nf) (hnf2 : nf < 256) :
    ∃ c', step malloc sem c = some c' ∧ (Spans c'.data (c'.ctx :: c'.callstack) → ∃ a' junk', View c' a' ∧
      a'.cur = .code code 0 (.native code nf 0 d :: junk') ∧ a'.stack = .handler h :: a.stack ∧ a'.w = a.w) := by
  have henter : Enter (.native code nf 0 d) [] { a with stack := .handler h :: a.stack } _ :=
    Enter.mk code nf 0 d (List.replicate (nf - 1) .nil) _ rfl rfl (by simp; omega) hnf2
  obtain ⟨c', h1, h2⟩ := try_rel hmal (sem := sem) (fun h => h) hrel hcur (.exact _ _ _ _ henter)
  refine ⟨c', h1, fun hg => ?_⟩
  obtain ⟨a', h3, h4⟩ := h2 (Or.inr hg)
  cases h3 with
  | try' self' thunk' h' junk' _ _ hc' happ =>
    rw [hcur] at hc'
    injection hc' with _ _ hc'
    injection hc' with hc1 hc'
    injection hc' with hc2 hc3
    injection hc3 with hc3 hc4
    subst hc1 hc2 hc3 hc4
    have he := applies_exact happ rfl
    cases he with
    | mk code1 nf1 req1 d1 junk1 _ hf =>
      injection hf with f1 f2 f3 f4
      subst f1 f2 f3 f4
      exact ⟨_, junk1, h4.view, rfl, rfl, rfl⟩
  | ret n l regs o v s s' hc => rw [hcur] at hc; simp at hc
  | tail n l regs o f args s s' hc => rw [hcur] at hc; simp at hc
  | call n l regs o l' f args s s' hc => rw [hcur] at hc; simp at hc
  | curry l nframe required g got args junk junk' c gn gr gd s hc => rw [hcur] at hc; simp at hc
  | handler h s s' hc => rw [hcur] at hc; simp at hc
  | throw self v junk pre post h l s s' hc => rw [hcur] at hc; simp at hc
  | resume nf nr id v junk pre h l s s' hc => rw [hcur] at hc; simp at hc
  | apply self f l args junk lbl s s' hc => rw [hcur] at hc; simp at hc
  | rest args s s' hc => rw [hcur] at hc; simp at hc

/-- C26, leaving: when the body returns, the `try` returns the same value to what was suspended under it, and the
handler is gone -/
theorem C26_body_returns (malloc : List Nat → Nat) (sem : Sem W) (c : Cora W) (a : ASt W) (hrel : Rel False c a) (h : Val)
    (hcur : a.cur = .handler h) :
    ∃ c' a', step malloc sem c = some c' ∧ View c' a' ∧ a'.cur :: a'.stack = a.stack ∧ a'.res = a.res ∧ a'.w = a.w := by
  obtain ⟨c', h1, a', h3, h4⟩ := handler_rel (malloc := malloc) (sem := sem) hrel hcur
  cases h3 with
  | handler h' _ _ hc' hret =>
    cases hret with
    | mk f fs hst => exact ⟨c', _, h1, h4.view, hst.symm, rfl, rfl⟩
  | ret n l regs o v s s' hc => rw [hcur] at hc; simp at hc
  | tail n l regs o f args s s' hc => rw [hcur] at hc; simp at hc
  | call n l regs o l' f args s s' hc => rw [hcur] at hc; simp at hc
  | curry l nframe required g got args junk junk' c gn gr gd s hc => rw [hcur] at hc; simp at hc
  | try' self thunk h junk s s' hc => rw [hcur] at hc; simp at hc
  | throw self v junk pre post h l s s' hc => rw [hcur] at hc; simp at hc
  | resume nf nr id v junk pre h l s s' hc => rw [hcur] at hc; simp at hc
  | apply self f l args junk lbl s s' hc => rw [hcur] at hc; simp at hc
  | rest args s s' hc => rw [hcur] at hc; simp at hc

/-! ### roots -/

/-- the values the rest of the execution can use: registers of all activations and handlers. Pending arguments are not
listed, see `C27_pending_arguments_are_not_roots`. -/
def AFrame.vals : AFrame → List Val
  | .code _ _ regs => regs
  | .handler h => [h]
  | _ => []

theorem shows_vals {mem : Nat → Val} {f : Frame} {a : AFrame} (h : Shows mem f a) :
    ∀ v ∈ AFrame.vals a, v ∈ readMem mem f.bp (f.sp - f.bp) := by
  intro v hv
  cases a with
  | code c l regs => rw [h.2.2]; exact hv
  | rest => simp [AFrame.vals] at hv
  | exit => simp [AFrame.vals] at hv
  | handler hh =>
    simp [AFrame.vals] at hv
    subst hv
    obtain ⟨_, _, h1, h2⟩ := h
    unfold readMem
    rw [List.mem_map]
    exact ⟨2, by rw [List.mem_range]; omega, h2⟩

theorem showsAll_vals {mem : Nat → Val} {fs : List Frame} {as : List AFrame} (h : ShowsAll mem fs as) :
    ∀ v ∈ as.flatMap AFrame.vals, v ∈ fs.flatMap fun f => readMem mem f.bp (f.sp - f.bp) := by
  induction fs generalizing as with
  | nil =>
    cases as with
    | nil => intro v hv; simp at hv
    | cons => exact h.elim
  | cons f fs ih =>
    cases as with
    | nil => exact h.elim
    | cons a as =>
      intro v hv
      rw [List.flatMap_cons, List.mem_append] at hv ⊢
      rcases hv with hv | hv
      · exact Or.inl (shows_vals h.1 v hv)
      · exact Or.inr (ih h.2 v hv)

/-- C27: in every state of a run (`C23_nesting_partial`, `C23_control_partial`), every value in a register of the
current activation or of a suspended one, every handler and the last result are marked as roots by the collector; and
a continuation object keeps every register and the handler of the piece of stack it stands for. `_partial`: the
arguments waiting for the result of a call with too many arguments are missing. -/
theorem C27_roots_partial (c : Cora W) (a : ASt W) (h : View c a) :
    (∀ v ∈ (a.cur :: a.stack).flatMap AFrame.vals, v ∈ roots c) ∧ a.res ∈ roots c ∧
    (∀ (id : Nat) pre hh, a.conts[id]? = some (some (pre, hh)) →
      ∀ v ∈ (pre ++ [AFrame.handler hh]).flatMap AFrame.vals, v ∈ contRoots c id) := by
  refine ⟨?_, ?_, ?_⟩
  · intro v hv
    have := showsAll_vals h.frames v hv
    rw [List.flatMap_cons, List.mem_append] at this
    unfold roots
    rcases this with h1 | h1
    · simp [h1]
    · exact List.mem_append_right _ h1
  · rw [← h.res]
    simp [roots]
  · intro id pre hh hid v hv
    obtain ⟨k, k1, k2⟩ := h.conts id pre hh hid
    unfold contRoots
    rw [k1]
    exact showsAll_vals k2 v hv

/-! ### apply -/

/-- C28: `(apply f l)` with a proper list of as many elements as `f` takes starts `f` with exactly these, in order, in
the place of `apply` -/
theorem C28_apply (malloc : List Nat → Nat) (hmal : ∀ h, ∀ s ∈ h, malloc h + 256 ≤ s ∨ s + 256 ≤ malloc h) (sem : Sem W)
    (c : Cora W) (h : Ready c) (self l : Val) (junk args : List Val) (code : Code) (nf req : Nat) (d : List Val)
    (hfn : c.ctx.fn = some .apply) (hr : c.regs = some (self :: .native code nf req d :: l :: junk)) (hl : IsList l args)
    (hargs : args.length = req) (hnf : req + 1 ≤ nf) (hnf2 : nf < 256) :
    ∃ c', step malloc sem c = some c' ∧ c'.ctx.fn = some code ∧ c'.ctx.label = 0 ∧ c'.callstack = c.callstack ∧
      ∃ junk', readMem c'.mem c'.ctx.bp (c'.ctx.sp - c'.ctx.bp) = .native code nf req d :: args ++ junk' := by
  obtain ⟨c', x, e1, e2, e3, e4, e5, e6, e7, e8, e9, e10, e11, e12, junk', e13⟩ :=
    enter_desc (code := code) (req := req) (d := d) (args := args) hmal h.mem h.lo h.hi (by omega) hnf2
  refine ⟨c', ?_, by rw [e8], by rw [e8], e2, junk', ?_⟩
  · have hstep : step malloc sem c = builtinApply malloc c := by unfold step; rw [hfn]
    rw [hstep]
    unfold builtinApply
    simp only [hr, listElems_of hl, Option.bind_eq_bind, Option.bind_some]
    rw [if_neg (by omega)]
    exact e1
  · rw [e8]
    simp only [Nat.add_sub_cancel_left]
    exact e13

theorem isList_of {v : Val} {l : List Val} (h : listElems v = some l) : IsList v l := by
  fun_induction listElems v generalizing l with
  | case1 => injection h with h; subst h; exact .nil
  | case2 a b ih =>
    rw [Option.map_eq_some_iff] at h
    obtain ⟨l', h1, h2⟩ := h
    subst h2
    exact .cons a b l' (ih h1)
  | case3 => simp at h

/-- C28: `apply` never starts anything else: if it does not trap, it was given a function and a proper list of as many
elements as the function takes, and the function starts with exactly these in its first registers -/
theorem C28_never_wrong (malloc : List Nat → Nat) (sem : Sem W) (c c' : Cora W) (self f l : Val) (junk : List Val)
    (hfn : c.ctx.fn = some .apply) (hr : c.regs = some (self :: f :: l :: junk)) (hs : step malloc sem c = some c') :
    ∃ code nf req d args, f = .native code nf req d ∧ IsList l args ∧ args.length = req ∧ c'.ctx.fn = some code ∧
      c'.ctx.label = 0 ∧ readMem c'.mem c'.ctx.bp (req + 1) = f :: args := by
  have hstep : step malloc sem c = builtinApply malloc c := by unfold step; rw [hfn]
  rw [hstep] at hs
  unfold builtinApply at hs
  simp only [hr, Option.bind_eq_bind, Option.bind_some] at hs
  cases hl : listElems l with
  | none => rw [hl] at hs; simp at hs
  | some args =>
    rw [hl] at hs
    simp only [Option.bind_some] at hs
    cases f with
    | native code nf req d =>
      simp only [] at hs
      split at hs
      · simp at hs
      · rename_i hreq
        unfold enter at hs
        simp only [Option.bind_eq_bind] at hs
        cases ha : stackAlloc malloc c nf with
        | none => rw [ha] at hs; simp at hs
        | some c1 =>
          rw [ha] at hs
          simp only [Option.bind_some] at hs
          unfold Cora.store at hs
          split at hs
          · simp only [Option.bind_some] at hs
            injection hs with hs
            subst hs
            refine ⟨code, nf, req, d, args, rfl, isList_of hl, by omega, rfl, rfl, ?_⟩
            have : req + 1 = (Val.native code nf req d :: args).length := by simp; omega
            rw [this]
            exact readMem_store
          · simp at hs
    | _ => simp at hs

/-! ### programs on which the code differs from the abstract machine -/

/-- an allocator: segments at increasing addresses -/
def bump (h : List Nat) : Nat := h.foldl max 0 + 256

theorem bump_fresh : ∀ h, ∀ s ∈ h, bump h + 256 ≤ s ∨ s + 256 ≤ bump h := by
  have mono : ∀ (h : List Nat) (n : Nat), n ≤ h.foldl max n := by
    intro h
    induction h with
    | nil => intro n; exact Nat.le_refl _
    | cons a r ih => intro n; exact Nat.le_trans (Nat.le_max_left n a) (ih _)
  have key : ∀ (h : List Nat) (n s : Nat), s ∈ h → s ≤ h.foldl max n := by
    intro h
    induction h with
    | nil => intro n s hs; simp at hs
    | cons a r ih =>
      intro n s hs
      rw [List.mem_cons] at hs
      rcases hs with rfl | hs
      · exact Nat.le_trans (Nat.le_max_right n s) (mono r _)
      · exact ih _ s hs
  intro h s hs
  have := key h 0 s hs
  unfold bump
  omega

/-- a function with a large frame, and the contents of such a frame -/
def bigFn (k req : Nat) : Val := .native (.user k) 254 req []
def blank : List Val := List.replicate 254 .nil

/-- function 2, of one argument, counts down by calling the function 1 of no argument with one argument too many, in
tail position; function 1 returns function 2 -/
def overSem : Sem Nat := fun n _ _ _ w =>
  some (match n, w with
    | 2, 0 => ⟨blank, .ret .nil, 0⟩
    | 2, w + 1 => ⟨blank, .tail (bigFn 1 0) [.nil], w⟩
    | _, w => ⟨blank, .ret (bigFn 2 1), w⟩)

theorem none_of {o : Option α} (h : o.isNone = true) : o = none := by cases o <;> simp_all

set_option maxRecDepth 3000 in
/-- C23 is false with calls of too many arguments: this program should end, but the machine traps at the last return,
because the calls have left two stack segments behind and a return gives back only one -/
theorem C23_overapplication_traps :
    runN bump overSem 7 (boot 0 2 blank .nil 2) = none ∧
    ∃ a, AReach overSem 7 (aboot 2 blank .nil 2) a ∧ a.cur = .exit ∧ a.res = .nil := by
  refine ⟨none_of (by decide +kernel), ?_⟩
  have one : ∀ (st : List AFrame) (cs : List (Option (List AFrame × Val))) (regs : List Val) (res : Val) (w : Nat),
      regs.length = 254 → AReach overSem 3 ⟨.code (.user 2) 0 regs, res, st, cs, w + 1⟩
        ⟨.code (.user 2) 0 (bigFn 2 1 :: .nil :: List.replicate 252 .nil), bigFn 2 1, st, cs, w⟩ := by
    intro st cs regs res w hr
    refine .succ _ _ _ _ (.succ _ _ _ _ (.succ _ _ _ _ (.zero _) (AStep.tail 2 0 _ _ _ _ _ _ rfl rfl ?_ rfl
        (Applies.more _ _ _ _ _ _ _ ?_ (Enter.mk _ 254 0 [] (List.replicate 253 .nil) _ rfl rfl rfl (by omega)))))
      (AStep.ret 1 0 _ _ _ _ _ rfl rfl rfl rfl (Return.mk _ _ _ rfl)))
      (AStep.rest [.nil] _ _ rfl (.exact _ _ _ _ (Enter.mk _ 254 1 [] (List.replicate 252 .nil) _ rfl rfl rfl (by omega))))
    · rw [hr]; rfl
    · simp
  have join : ∀ {k j : Nat} {a b c : ASt Nat}, AReach overSem k a b → AReach overSem j b c → AReach overSem (k + j) a c := by
    intro k j a b c h1 h2
    induction h2 with
    | zero => exact h1
    | succ j s s' s'' g1 g2 ih => exact .succ _ _ _ _ (ih h1) g2
  refine ⟨_, join (join (one [.exit] [] blank .nil 1 rfl) (one _ _ _ _ 0 rfl))
    (.succ _ _ _ _ (.zero _) (AStep.ret 2 0 _ _ _ _ _ rfl rfl rfl rfl (Return.mk _ _ _ rfl))), rfl, rfl⟩

/-- a loop through `apply` in tail position -/
def applySem : Sem Nat := fun _ _ _ _ w =>
  some (match w with
    | 0 => ⟨blank, .ret .nil, 0⟩
    | w + 1 => ⟨blank, .tail (.native .apply 3 2 []) [bigFn 1 0, .nil], w⟩)

set_option maxRecDepth 3000 in
/-- C25 is false with `apply` in tail position: every round leaves slots behind; two rounds of a function with a large
frame use two more segments, and then the return traps -/
theorem C25_apply_traps :
    (∃ c, runN bump applySem 4 (boot 0 1 blank .nil 2) = some c ∧ c.data = [512, 256, 0]) ∧
    runN bump applySem 5 (boot 0 1 blank .nil 2) = none ∧
    ∃ a, AReach applySem 5 (aboot 1 blank .nil 2) a ∧ a.cur = .exit ∧ a.res = .nil := by
  refine ⟨?_, none_of (by decide +kernel), ?_⟩
  · have : (runN bump applySem 4 (boot 0 1 blank .nil 2)).map (·.data) = some [512, 256, 0] := by decide +kernel
    rw [Option.map_eq_some_iff] at this
    exact this
  · have one : ∀ (st : List AFrame) (cs : List (Option (List AFrame × Val))) (regs : List Val) (res : Val) (w : Nat),
        regs.length = 254 → AReach applySem 2 ⟨.code (.user 1) 0 regs, res, st, cs, w + 1⟩
          ⟨.code (.user 1) 0 (bigFn 1 0 :: List.replicate 253 .nil), res, st, cs, w⟩ := by
      intro st cs regs res w hr
      refine .succ _ _ _ _ (.succ _ _ _ _ (.zero _) (AStep.tail 1 0 _ _ _ _ _ _ rfl rfl ?_ rfl
          (.exact _ _ _ _ (Enter.mk _ 3 2 [] [] _ rfl rfl rfl (by omega)))))
        (AStep.apply _ _ _ [] [] 0 _ _ rfl .nil (Enter.mk _ 254 0 [] (List.replicate 253 .nil) _ rfl rfl rfl (by omega)))
      rw [hr]; rfl
    have join : ∀ {k j : Nat} {a b c : ASt Nat}, AReach applySem k a b → AReach applySem j b c →
        AReach applySem (k + j) a c := by
      intro k j a b c h1 h2
      induction h2 with
      | zero => exact h1
      | succ j s s' s'' g1 g2 ih => exact .succ _ _ _ _ (ih h1) g2
    exact ⟨_, join (join (one [.exit] [] blank .nil 1 rfl) (one _ _ _ _ 0 rfl))
      (.succ _ _ _ _ (.zero _) (AStep.ret 1 0 _ _ _ _ _ rfl rfl rfl rfl (Return.mk _ _ _ rfl))), rfl, rfl⟩

/-- a function with a large frame calls `(try thunk handler)`; the thunk just returns -/
def trySem : Sem Nat := fun n l _ _ w =>
  some (match n, l with
    | 1, 0 => ⟨blank, .call 1 (.native .tryCatch 3 2 []) [bigFn 2 0, bigFn 3 2], w⟩
    | _, _ => ⟨blank, .ret .nil, w⟩)

set_option maxRecDepth 3000 in
/-- C26 is false when the frame of `try` itself does not fit into the caller's segment: the `try` should return to its
caller, but the machine traps, without any `throw` -/
theorem C26_try_at_boundary_traps :
    runN bump trySem 4 (boot 0 1 blank .nil 0) = none ∧
    ∃ a regs, AReach trySem 4 (aboot 1 blank .nil 0) a ∧ a.cur = .code (.user 1) 1 regs ∧ a.res = .nil := by
  refine ⟨none_of (by decide +kernel), ?_⟩
  exact ⟨_, _, .succ _ _ _ _ (.succ _ _ _ _ (.succ _ _ _ _ (.succ _ _ _ _ (.zero _)
      (AStep.call 1 0 _ _ _ _ _ _ _ rfl rfl rfl rfl (.exact _ _ _ _ (Enter.mk _ 3 2 [] [] _ rfl rfl rfl (by omega)))))
      (AStep.try' _ _ _ [] _ _ rfl (.exact _ _ _ _ (Enter.mk _ 254 0 [] (List.replicate 253 .nil) _ rfl rfl rfl (by omega)))))
      (AStep.ret 2 0 _ _ _ _ _ rfl rfl rfl rfl (Return.mk _ _ _ rfl)))
      (AStep.handler _ _ _ rfl (Return.mk _ _ _ rfl)), rfl, rfl⟩

/-- a function with a small frame -/
def smallFn (k req : Nat) : Val := .native (.user k) 3 req []

/-- a handler that resumes twice -/
def twiceSem : Sem Nat := fun n l r _ w =>
  match n, l, r with
  | 1, 0, _ => some ⟨r, .call 1 (.native .tryCatch 3 2 []) [smallFn 2 0, smallFn 3 2], w⟩
  | 2, 0, _ => some ⟨r, .call 1 (.native .throw 2 1 []) [.other 5], w⟩
  | 3, 0, _ :: _ :: k :: _ => some ⟨r, .call 1 k [.other 6], w⟩
  | 3, 1, _ :: _ :: k :: _ => some ⟨r, .call 2 k [.other 7], w⟩
  | _, _, _ => some ⟨r, .ret .nil, w⟩

/-- is the machine about to resume continuation 0 -/
def resumes0 (c : Cora W) : Bool :=
  match c.ctx.fn, c.regs with
  | some .resume, some (.native .resume _ _ [.cont 0] :: _) => true
  | _, _ => false

/-- C26 is false when a continuation is resumed a second time: the first resumption has freed the segment in which the
captured activations live, so the body goes on with a frame in freed memory -/
theorem C26_resume_twice :
    ((runN bump twiceSem 5 (boot 0 1 [smallFn 1 0, .nil, .nil] .nil 0)).map resumes0 = some true) ∧
    ((runN bump twiceSem 9 (boot 0 1 [smallFn 1 0, .nil, .nil] .nil 0)).map resumes0 = some true) ∧
    ((runN bump twiceSem 10 (boot 0 1 [smallFn 1 0, .nil, .nil] .nil 0)).map
      fun c => (c.ctx.fn, c.regs.isNone)) = some (some (.user 2), true) ∧
    runN bump twiceSem 11 (boot 0 1 [smallFn 1 0, .nil, .nil] .nil 0) = none := by
  refine ⟨?_, ?_, ?_, none_of ?_⟩ <;> decide +kernel

/-- `(try (lambda () ((f) 5)) handler)` written as a call of `f` with one argument too many; `f` throws and the
handler returns 7 -/
def pendSem : Sem Nat := fun n l r _ w =>
  match n, l, r with
  | 1, 0, _ => some ⟨r, .call 1 (.native .tryCatch 3 2 []) [smallFn 2 0, smallFn 3 2], w⟩
  | 2, 0, _ => some ⟨r, .call 1 (smallFn 4 0) [.other 5], w⟩
  | 4, 0, _ => some ⟨r, .call 1 (.native .throw 2 1 []) [.other 5], w⟩
  | _, _, _ => some ⟨r, .ret (.other 7), w⟩

/-- C26 is false for a throw out of a call with too many arguments: the arguments stay pending after the `try` has been
left. The program ends with its result, and then this result is applied to the stale arguments, which traps. -/
theorem C26_throw_over_pending :
    ((runN bump pendSem 7 (boot 0 1 [smallFn 1 0, .nil, .nil] .nil 0)).map
      fun c => (c.ctx.fn.isNone, c.callstack.length, c.cstack.length)) = some (true, 0, 1) ∧
    runN bump pendSem 8 (boot 0 1 [smallFn 1 0, .nil, .nil] .nil 0) = none := by
  refine ⟨?_, none_of ?_⟩ <;> decide +kernel

/-- `((f) 42)` as a tail call of `f` with one argument too many; the result of `f` returns its argument -/
def gapSem : Sem Nat := fun n _ r _ w =>
  match n, r with
  | 1, _ => some ⟨r, .tail (smallFn 2 0) [.other 42], w⟩
  | 2, _ => some ⟨r, .ret (smallFn 3 1), w⟩
  | _, _ :: x :: _ => some ⟨r, .ret x, w⟩
  | _, _ => none

/-- C27 is false for the arguments that wait for the result of a call with too many arguments: while the function runs
(after one step) the argument 42 is in no root, and yet it becomes the result of the program (after four) -/
theorem C27_pending_arguments_are_not_roots :
    (∃ c, runN bump gapSem 1 (boot 0 1 [smallFn 1 0, .nil, .nil] .nil 0) = some c ∧ .other 42 ∉ roots c) ∧
    (∃ c, runN bump gapSem 4 (boot 0 1 [smallFn 1 0, .nil, .nil] .nil 0) = some c ∧ c.res = .other 42) := by
  refine ⟨⟨_, rfl, ?_⟩, ⟨_, rfl, rfl⟩⟩
  intro h
  simp [roots, readMem, List.range, List.range.loop, boot, smallFn] at h

/-! ### cases that meet the hypotheses -/

/-- a function with a large frame that calls itself `w` times, not in tail position -/
def deepSem : Sem Nat := fun n l r _ w =>
  match n, l, w with
  | 1, 0, w + 1 => some ⟨r, .call 1 (bigFn 1 0) [], w⟩
  | _, _, w => some ⟨r, .ret .nil, w⟩

/-- C23_nesting_partial: all states of that program are plain -/
example : ∀ k a, AReach deepSem k (aboot 1 blank .nil 9) a → Plain a := by
  have hf : ∀ f, ((∃ l regs, f = AFrame.code (.user 1) l regs) ∨ f = .exit) → ∀ a : ASt Nat, a.cur = f → Plain a := by
    intro f hf a ha
    rcases hf with ⟨l, regs, rfl⟩ | rfl
    · exact Or.inl ⟨1, l, regs, ha⟩
    · exact Or.inr (Or.inr ha)
  have key : ∀ k a0 a, AReach deepSem k a0 a → (∀ f ∈ a0.cur :: a0.stack, (∃ l regs, f = AFrame.code (.user 1) l regs) ∨ f = .exit) →
      ∀ f ∈ a.cur :: a.stack, (∃ l regs, f = AFrame.code (.user 1) l regs) ∨ f = .exit := by
    intro k a0 a h h0
    induction h with
    | zero => exact h0
    | succ k s s' s'' h1 h2 ih =>
      have ih := ih h0
      have hcur := ih s'.cur (by simp)
      cases h2 with
      | ret n l regs o v _ _ hc ho hlen ht hret =>
        cases hret with
        | mk f fs hst =>
          intro g hg
          refine ih g (List.mem_cons_of_mem _ ?_)
          have hst' : s'.stack = f :: fs := hst
          rw [hst']
          exact hg
      | call n l regs o l' f args _ _ hc ho hlen ht happ =>
        rw [hc] at hcur
        rcases hcur with ⟨l2, regs2, e⟩ | e
        · injection e with e1 e2 e3
          injection e1 with e1
          subst e1
          have : o.term = .call 1 (bigFn 1 0) [] := by
            unfold deepSem at ho
            split at ho
            · injection ho with ho; subst ho; rfl
            · injection ho with ho; subst ho; simp at ht
          rw [ht] at this
          injection this with t1 t2 t3
          subst t1 t2 t3
          have he := applies_exact happ rfl
          cases he with
          | mk code1 nf1 req1 d1 junk1 _ hf1 =>
            injection hf1 with f1 f2 f3 f4
            subst f1
            intro g hg
            simp only [List.mem_cons] at hg
            rcases hg with rfl | rfl | hg
            · exact Or.inl ⟨_, _, rfl⟩
            · exact Or.inl ⟨_, _, rfl⟩
            · exact ih g (List.mem_cons_of_mem _ hg)
        · simp at e
      | tail n l regs o f args _ _ hc ho hlen ht =>
        unfold deepSem at ho
        split at ho <;> (injection ho with ho; subst ho; simp at ht)
      | curry l nframe required g got args junk junk' c gn gr gd s hc => rw [hc] at hcur; simp at hcur
      | try' self thunk h junk s s' hc => rw [hc] at hcur; simp at hcur
      | handler h s s' hc => rw [hc] at hcur; simp at hcur
      | throw self v junk pre post h l s s' hc => rw [hc] at hcur; simp at hcur
      | resume nf nr id v junk pre h l s s' hc => rw [hc] at hcur; simp at hcur
      | apply self f l args junk lbl s s' hc => rw [hc] at hcur; simp at hcur
      | rest args s s' hc => rw [hc] at hcur; simp at hcur
  intro k a h
  have := key k _ a h (by
    intro f hf
    simp [aboot] at hf
    rcases hf with rfl | rfl
    · exact Or.inl ⟨_, _, rfl⟩
    · exact Or.inr rfl)
  exact hf _ (this a.cur (by simp)) a rfl

/-- it runs over ten segments and ends -/
example : ((runN bump deepSem 9 (boot 0 1 blank .nil 9)).map fun c => c.data.length) = some 10 ∧
    ((runN bump deepSem 19 (boot 0 1 blank .nil 9)).map fun c => (c.ctx.fn.isNone, c.data)) = some (true, [0]) := by
  constructor <;> decide +kernel

/-- a handler that resumes once -/
def onceSem : Sem Nat := fun n l r res w =>
  match n, l, r with
  | 1, 0, _ => some ⟨r, .call 1 (.native .tryCatch 3 2 []) [smallFn 2 0, smallFn 3 2], w⟩
  | 1, _, _ => some ⟨r, .ret res, w⟩
  | 2, 0, _ => some ⟨r, .call 1 (.native .throw 2 1 []) [.other 5], w⟩
  | 2, _, _ => some ⟨r, .ret (.cons res .nil), w⟩
  | 3, 0, _ :: _ :: k :: _ => some ⟨r, .call 1 k [.other 6], w⟩
  | _, _, _ => some ⟨r, .ret (.cons res res), w⟩

def onceBoot : Cora Nat := boot 0 1 [smallFn 1 0, .nil, .nil] .nil 0

/-- a test for `Spans` -/
def spansB : List Nat → List Frame → Bool
  | _, [] => true
  | [], _ :: _ => false
  | b :: r, f :: fs => (b ≤ f.sp && f.sp < b + 256) && (spansB (b :: r) fs || spansB r fs)

theorem spans_of {segs : List Nat} {fs : List Frame} (h : spansB segs fs = true) : Spans segs fs := by
  fun_induction spansB segs fs with
  | case1 => trivial
  | case2 => simp at h
  | case3 b r f fs ih1 ih2 =>
    simp only [Bool.and_eq_true, Bool.or_eq_true, decide_eq_true_eq] at h
    refine ⟨⟨b, r, rfl, h.1.1, h.1.2⟩, ?_⟩
    rcases h.2 with h | h
    · exact Or.inl (ih1 h)
    · exact Or.inr ⟨b, r, rfl, ih2 h⟩

/-- C23_control_partial, C26: no frame of that program lies over two boundaries, and it ends with the result that the
handler gives the value of the body -/
theorem once_spans : ∀ k c, runN bump onceSem k onceBoot = some c → Spans c.data (c.ctx :: c.callstack) := by
  have h10 : runN bump onceSem 11 onceBoot = none := none_of (by decide +kernel)
  have hlt : ∀ k < 11, (runN bump onceSem k onceBoot).any (fun c => spansB c.data (c.ctx :: c.callstack)) = true := by
    decide +kernel
  have hge : ∀ j, runN bump onceSem (11 + j) onceBoot = none := by
    intro j
    induction j with
    | zero => exact h10
    | succ j ih => rw [← Nat.add_assoc]; unfold runN; rw [ih]; rfl
  intro k c h
  by_cases hk : k < 11
  · have := hlt k hk
    rw [h] at this
    exact spans_of this
  · have := hge (k - 11)
    rw [show 11 + (k - 11) = k by omega, h] at this
    simp at this

example : (∃ c, runN bump onceSem 10 onceBoot = some c ∧ c.ctx.fn = none ∧ c.callstack = [] ∧
    c.res = .cons (.cons (.other 6) .nil) (.cons (.other 6) .nil)) := by
  exact ⟨_, rfl, rfl, rfl, rfl⟩

/-- the memory of that program when the body throws and when the handler resumes -/
def onceMem (p : Nat) : Val :=
  if p = 258 then smallFn 3 2 else if p = 263 then .other 5 else if p = 6 then .native .resume 2 1 [.cont 0]
  else if p = 7 then .other 6 else .nil

/-- C26_throw_partial, C26_try_partial: the state in which the body throws -/
example : ∃ c : Cora Nat, Rel False c ⟨.code .throw 0 [.nil, .other 5], .nil,
    [.code (.user 2) 1 [.nil, .nil, .nil]] ++ .handler (.native (.user 3) 3 2 []) ::
      [.code (.user 1) 1 [.nil, .nil, .nil], .exit], [], 0⟩ := by
  refine ⟨⟨⟨some .throw, 0, 262, 264⟩, [⟨some (.user 2), 1, 259, 262⟩, ⟨some .tryCatch, 1, 256, 259⟩,
    ⟨some (.user 1), 1, 0, 3⟩, ⟨none, 0, 0, 3⟩], 256, 512, [256, 0], .nil, [⟨2, 1⟩], onceMem, [256, 0], [], [], 0⟩, ?_, ?_, ?_,
    rfl, rfl⟩
  · refine .code 256 [0] _ _ .throw _ _ _ [256, 0] ?_ rfl (Or.inl ⟨rfl, ?_⟩)
      (.code 256 [0] _ _ (.user 2) _ _ _ [256, 0] ?_ rfl (Or.inl ⟨rfl, ?_⟩)
      (.handler 256 [0] _ _ _ _ _ rfl
      (.code 0 [] _ _ (.user 1) _ _ _ [0] ?_ rfl (Or.inl ⟨rfl, ?_⟩)
      (.exit 0 [] _ ?_ rfl)))) <;> simp [InSeg, top]
  · exact ⟨⟨[0], rfl⟩, rfl, by decide, by simp, by simp [Apart]⟩
  · exact ⟨rfl, by simp, by simp⟩

/-- C26_resume_partial: the state in which the handler resumes -/
example : ∃ c : Cora Nat, Rel False c ⟨.code .resume 0 [.native .resume 2 1 [.cont 0], .other 6], .nil,
    [.code (.user 3) 1 [.nil, .nil, .nil], .code (.user 1) 1 [.nil, .nil, .nil], .exit],
    [some ([.code (.user 2) 1 [.nil, .nil, .nil]], .native (.user 3) 3 2 [])], 0⟩ := by
  refine ⟨⟨⟨some .resume, 0, 6, 8⟩, [⟨some (.user 3), 1, 3, 6⟩, ⟨some (.user 1), 1, 0, 3⟩, ⟨none, 0, 0, 3⟩], 0, 256, [0],
    .nil, [], onceMem, [256, 0], [([⟨some (.user 2), 1, 259, 262⟩, ⟨some .tryCatch, 1, 256, 259⟩], [256])], [], 0⟩, ?_, ?_, ?_,
    rfl, rfl⟩
  · refine .code 0 [] _ _ .resume _ _ _ [0] ?_ rfl (Or.inl ⟨rfl, ?_⟩)
      (.code 0 [] _ _ (.user 3) _ _ _ [0] ?_ rfl (Or.inl ⟨rfl, ?_⟩)
      (.code 0 [] _ _ (.user 1) _ _ _ [0] ?_ rfl (Or.inl ⟨rfl, ?_⟩)
      (.exit 0 [] _ ?_ rfl))) <;> simp [InSeg, top]
  · exact ⟨⟨[], rfl⟩, rfl, by decide, by simp, by simp [Apart]⟩
  · refine ⟨rfl, ?_, ?_⟩
    · intro id pre h hid
      have h0 : id = 0 := by
        cases id with
        | zero => rfl
        | succ n => simp at hid
      subst h0
      simp at hid
      obtain ⟨e1, e2⟩ := hid
      subst e1 e2
      refine ⟨_, rfl, ⟨[256], Or.inl rfl, ?_⟩, by decide, by simp⟩
      refine .code 256 [] _ _ (.user 2) _ _ [256] ?_ rfl (Or.inl ⟨rfl, ?_⟩) (.base 256 _ rfl) <;> simp [InSeg, top]
    · intro id id' p p' k k' hne h1 h2
      have g : ∀ {id : Nat} {p : List AFrame × Val},
          [some ([AFrame.code (.user 2) 1 [.nil, .nil, .nil]], Val.native (.user 3) 3 2 [])][id]? = some (some p) → id = 0 := by
        intro id p h
        cases id with
        | zero => rfl
        | succ n => simp at h
      exact absurd ((g h1).trans (g h2).symm) hne

/-- C25_tail_calls_partial: a loop that never ends, made of tail calls -/
example : ∀ k, ∃ c, TailRun bump (fun _ _ r _ w => some ⟨r, .tail (smallFn 1 0) [], w + 1⟩) k
    (boot 0 1 [smallFn 1 0, .nil, .nil] .nil 0) c := by
  have inv : ∀ k, ∃ c : Cora Nat, TailRun bump (fun _ _ r _ w => some ⟨r, .tail (smallFn 1 0) [], w + 1⟩) k
      (boot 0 1 [smallFn 1 0, .nil, .nil] .nil 0) c ∧ c.ctx = ⟨some (.user 1), 0, 0, 3⟩ ∧ c.heap = [0] ∧ c.end_ = 256 := by
    intro k
    induction k with
    | zero => exact ⟨_, .zero _, rfl, rfl, rfl⟩
    | succ k ih =>
      obtain ⟨c, h1, h2, h3, h4⟩ := ih
      have hr : c.regs = some (readMem c.mem 0 3) := by
        unfold Cora.regs
        have : ∀ i < c.ctx.sp - c.ctx.bp, c.valid (c.ctx.bp + i) = true := by
          rw [h2]
          intro i hi
          simp only [Cora.valid, h3]
          simp at hi ⊢
          omega
        rw [if_pos this, h2]
        rfl
      have hst : ∀ (c : Cora Nat) vs, c.heap = [0] → vs.length ≤ 3 → ∃ m, c.store 0 vs = some { c with mem := m } := by
        intro c vs hh hl
        have hv : ∀ i < vs.length, c.valid (0 + i) = true := by
          intro i hi
          simp only [Cora.valid, hh]
          simp
          omega
        exact ⟨_, if_pos hv⟩
      obtain ⟨m1, hs1⟩ := hst c (readMem c.mem 0 3) h3 (by simp [readMem])
      let c1 : Cora Nat := { c with mem := m1, w := c.w + 1, ctx := ⟨some (.user 1), 0, 0, 3⟩ }
      obtain ⟨m2, hs2⟩ := hst c1 [smallFn 1 0] h3 (by simp)
      have hstep : step bump (fun _ _ r _ w => some ⟨r, .tail (smallFn 1 0) [], w + 1⟩) c = some { c1 with mem := m2 } := by
        unfold step userBlock
        simp only [h2, hr, Option.bind_eq_bind, Option.bind_some, hs1]
        simp only [if_true, callN, coraCall0, smallFn, enter, stackAlloc, h4]
        simp only [List.length_nil, ne_eq, not_true_eq_false, if_false, if_true]
        simp [c1, smallFn, h4] at hs2
        simp
        rw [hs2]
        simp [c1, h4]
      exact ⟨_, .succ k _ _ _ h1 (Or.inl (.mk c 1 _ _ (.user 1) 3 0 [] [] (by rw [h2]) hr rfl rfl rfl (by omega) (by omega)))
        hstep, rfl, h3, h4⟩
  intro k
  obtain ⟨c, h, _⟩ := inv k
  exact ⟨c, h⟩

/-- C24, C28: the start state is ready -/
example : Ready (boot 0 1 [smallFn 1 0, .nil, .nil] .nil (0 : Nat)) :=
  ⟨⟨⟨[], rfl⟩, rfl, by decide, by simp [boot], by simp [boot]⟩, by simp [boot], by simp [boot]⟩

/-- C24: a function of three arguments given two, then one -/
example : ((callN bump (boot 0 1 [smallFn 1 0, .nil, .nil] .nil (0 : Nat)) (.native (.user 4) 5 3 []) [.other 1, .other 2]).map
      fun c => c.ctx.fn.isNone) = some true ∧
    ∃ c, (callN bump (boot 0 1 [smallFn 1 0, .nil, .nil] .nil (0 : Nat))
        (partialsOf (.native (.user 4) 5 3 []) [[.other 1, .other 2]]) [.other 3]).bind (runN bump onceSem 1) = some c ∧
      readMem c.mem c.ctx.bp 4 = [.native (.user 4) 5 3 [], .other 1, .other 2, .other 3] := by
  refine ⟨rfl, _, rfl, rfl⟩

/-- C28_apply, C28_never_wrong: a frame of `apply` with a function of two arguments and a list of two; the step enters the function -/
example : ∃ c : Cora Nat, Ready c ∧ c.ctx.fn = some .apply ∧
    c.regs = some [.nil, .native (.user 4) 5 2 [], .cons (.other 7) (.cons (.other 8) .nil), .nil] ∧
    IsList (.cons (.other 7) (.cons (.other 8) .nil)) [.other 7, .other 8] ∧
    ∃ c', step bump onceSem c = some c' ∧ c'.ctx.fn = some (.user 4) ∧
      readMem c'.mem c'.ctx.bp 3 = [.native (.user 4) 5 2 [], .other 7, .other 8] := by
  refine ⟨{ boot 0 1 [.nil, .native (.user 4) 5 2 [], .cons (.other 7) (.cons (.other 8) .nil), .nil] .nil (0 : Nat) with
    ctx := ⟨some .apply, 0, 0, 4⟩ }, ⟨⟨⟨[], rfl⟩, rfl, by decide, by simp [boot], by simp [boot]⟩, by simp [boot], by simp [boot]⟩,
    rfl, rfl, ?_, _, rfl, rfl, rfl⟩
  exact .cons _ _ _ (.cons _ _ _ .nil)

end Cora.VM
