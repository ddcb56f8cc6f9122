import Verif.Lemmas.HeapSteps
import Verif.Props.Segments
/-
C80: compiled programs do what they mean with the runtime's heap, whatever the collector does and whenever it does it.
-/
open Spec.Lang Spec.Compiled Spec.C
namespace Cora.Compile
open GC Toc
variable {W : Type}

/-- the compiled file of a form, as C77 asks; every function has less than 256 registers -/
def HeapFile (n : Nat) (e : Core) (file : List Lam) : Prop :=
  ∃ g k k', ForC g k k' e ∧ compile e k = some (file, k') ∧ FitsFrame n file ∧ SmallFrames file

/-! ### constants -/

theorem smp_plain {g : Gen} {n : Nat} {vs : List Spec.Lang.Sym} {e : CSmp} (h : SmpOk g n vs e) : e.plain := by
  cases e with
  | const d => cases d <;> first | exact h.elim | trivial
  | _ => trivial

theorem stm_plain {g : Gen} {n : Nat} {V : List Spec.Lang.Sym} : ∀ (k : CStm) {vs here : List Spec.Lang.Sym}, StmOk g n V vs here k → k.plain
  | .ret e, vs, here, h => smp_plain h
  | .tail f args, vs, here, h => ⟨smp_plain h.1, fun a ha => smp_plain (h.2 a ha)⟩
  | .call f args l live, vs, here, h => ⟨smp_plain h.1, fun a ha => smp_plain (h.2.1 a ha)⟩
  | .bind x e k, vs, here, h => ⟨smp_plain h.2.2.1, stm_plain k h.2.2.2⟩
  | .prim x p args k, vs, here, h => ⟨fun a ha => smp_plain (h.2.2.2.1 a ha), stm_plain k h.2.2.2.2⟩
  | .seq e k, vs, here, h => ⟨smp_plain h.1, stm_plain k h.2⟩
  | .ite e a b, vs, here, h => ⟨smp_plain h.1, stm_plain a h.2.1, stm_plain b h.2.2⟩

theorem file_plain {g : Gen} {file : List Lam} (h : FileOk g file) : ∀ l ∈ file, ∀ b ∈ l.pieces, b.plain := by
  intro l hl b hb
  obtain ⟨V, _, _, _, h1, h2⟩ := (h.lam l hl).ok
  simp only [Lam.pieces, List.mem_cons, List.mem_map] at hb
  rcases hb with rfl | ⟨c, hc, rfl⟩
  · exact stm_plain _ h1
  · exact stm_plain _ (h2 c hc).2.2.2

section
variable [Layout]

theorem heap_session {E : Ext W} {O : Outside W} {HO : HOutside W} (hA : Agree E O) (hO : Parametric O) (hK : KeepsSane O)
    (hI : Implements HO O) (hT : Answers HO O) {malloc : List Nat → Nat} (hm : Fresh malloc) {n : Nat} :
    ∀ (items : List (Core × List Lam × Val × World W)) (units : List (List Lam)) (w : World W) (w' : CWorld MCode W), UnitsOk units →
    (∀ code ∈ units, ∀ l ∈ code, ∀ b ∈ l.pieces, b.plain) → MWorld units w w' → SaneWorld units w' →
    XSession false E w (items.map fun i => (i.1, i.2.2)) → (∀ i ∈ items, HeapFile n i.1 i.2.1) →
    LoadsHeap O HO malloc n units w' (items.map (·.2)) := by
  intro items
  induction items with
  | nil => intros; trivial
  | cons i items ih =>
    intro units w w' hU hpl hw hsw hs hi
    obtain ⟨e, file, v, w1⟩ := i
    cases hs with
    | cons h1 h2 =>
      obtain ⟨g, k, k', hf, hc, hroom, hsmall⟩ := hi (e, file, v, w1) (by simp)
      have hpl' : ∀ code ∈ units ++ [file], ∀ l ∈ code, ∀ b ∈ l.pieces, b.plain := by
        intro code hcode
        rcases List.mem_append.mp hcode with hcode | hcode
        · exact hpl code hcode
        · rw [List.mem_singleton] at hcode
          subst hcode
          exact file_plain (hf.fileOk hc)
      intro h held mine hsh hin hmine hsub
      refine ⟨load_all hA hO hK hI hT hm hU h1 hf.fresh hf.names hf.full hf.tidy hc hsmall hpl' hw hsw hroom hin hsh hmine hsub, fun h' hst hex => ?_⟩
      obtain ⟨hU', hsound⟩ := load_heap hA hO hK hI hm hU h1 hf.fresh hf.names hf.full hf.tidy hc hsmall hw hsw hroom hin hsh hmine hsub
      obtain ⟨held', u, w'', a1, a2, a3, a4, a5, a6, a7, a8, a9, a10, a11, a12, a13, a14, a15, a16⟩ := hsound h' (steps_go (a := none) hst hex)
      exact ⟨held', u, w'', a1, a2, looks_mrel a3, a4, looks_world a5, a7, a8, a9, a10, a11, a12, a13, a14, a15, a16,
        ih _ _ _ hU' hpl' a5 a6 h2 fun i hi' => hi i (by simp [hi'])⟩

/-- **C80**. Compiled files are loaded one after the other on a heap with the collector. The collector may start a cycle between any two
blocks, and it may mark, sweep, free and reuse as much as it likes at every allocation. Every run ends, whatever the collector does, and
then the result and the global variables look like those that the language defines, and all their objects are kept. Callers find
their registers, frames and objects unchanged. (The conditions are those of C79; moreover no function is called with more arguments
than it takes, and builtin functions only do what C code may do with the heap: `Acts`.) -/
theorem C80_heap_partial {E : Ext W} {O : Outside W} {HO : HOutside W} (hA : Agree E O) (hO : Parametric O) (hK : KeepsSane O)
    (hI : Implements HO O) (hT : Answers HO O) {malloc : List Nat → Nat} (hm : Fresh malloc) {n : Nat} {w : World W} {w' : CWorld MCode W}
    (hw : Worlds Plain w w') (hsw : SaneWorld [] w') (items : List (Core × List Lam × Val × World W))
    (hs : XSession false E w (items.map fun i => (i.1, i.2.2))) (hi : ∀ i ∈ items, HeapFile n i.1 i.2.1) :
    LoadsHeap O HO malloc n [] w' (items.map (·.2)) :=
  heap_session hA hO hK hI hT hm items [] w w' (by intro c hc; simp at hc) (by intro c hc; simp at hc) (plain_start [] hw) hsw hs hi

end

section
variable [Layout]

/-- the compiled file of a source file, as in C78; every function has less than 256 registers -/
def HeapSource (T : Setting) (r : Nat) (src : Bytes) (e : Core) (file : List Lam) : Prop :=
  ∃ n k k2 k3, program T n src (k + 1) = some (e, k2) ∧ compile e k2 = some (file, k3) ∧ ForC (genFor T e) k2 k3 e ∧
    FitsFrame r file ∧ SmallFrames file

/-- **C80**, from source files: the program that a source file means, compiled, on the heap. -/
theorem C80_source_partial {T : Setting} {E : Ext W} {O : Outside W} {HO : HOutside W} (hA : Agree E O) (hO : Parametric O) (hK : KeepsSane O)
    (hI : Implements HO O) (hT : Answers HO O) {malloc : List Nat → Nat} (hm : Fresh malloc) {r : Nat} {w : World W} {w' : CWorld MCode W}
    (hw : Worlds Plain w w') (hsw : SaneWorld [] w') (items : List (Bytes × Core × List Lam × Val × World W))
    (hs : XSession false E w (items.map fun i => (i.2.1, i.2.2.2))) (hi : ∀ i ∈ items, HeapSource T r i.1 i.2.1 i.2.2.1) :
    LoadsHeap O HO malloc r [] w' (items.map (·.2.2)) := by
  have := C80_heap_partial hA hO hK hI hT hm (n := r) hw hsw (items.map (·.2)) (by simpa only [List.map_map, Function.comp_def] using hs) (by
    intro i hi'
    obtain ⟨j, hj, rfl⟩ := List.mem_map.mp hi'
    obtain ⟨n, k, k2, k3, h1, h2, h3, h4, h5⟩ := hi j hj
    exact ⟨_, _, _, h3, h2, h4, h5⟩)
  simpa only [List.map_map, Function.comp_def] using this

end

/-! ### the hypotheses hold of concrete sessions -/

/-- a number -/
def wordInt : Word → Option Int
  | .int n => some n
  | _ => none

/-- the builtin functions of `someOutside`, on words -/
def someHOutside : HOutside (List Int) where
  prim p ws hp w hp' := ∃ n, arith2 wordInt p ws = some n ∧ w = .int n ∧ hp' = hp
  native _ ws hp w hp' := ∃ n, one wordInt ws = some n ∧ w = .int n ∧ hp' = { hp with rest := n :: hp.rest }

theorem shows_wordInt {cell : SlotId → Cell} {w : Word} {v : MVal} (h : Shows cell w v) : wordInt w = cvalInt v := by
  cases h <;> rfl

theorem showsAll_arith {cell : SlotId → Cell} {ws : List Word} {vs : List MVal} (h : ShowsAll cell ws vs) (p : String) :
    arith2 wordInt p ws = arith2 cvalInt p vs ∧ one wordInt ws = one cvalInt vs := by
  obtain ⟨hl, hs⟩ := h
  match ws, vs, hl with
  | [], [], _ => exact ⟨rfl, rfl⟩
  | [a], [u], _ => exact ⟨rfl, shows_wordInt (hs 0 a u rfl rfl)⟩
  | [a, b], [u, v], _ =>
    exact ⟨by simp only [arith2, shows_wordInt (hs 0 a u rfl rfl), shows_wordInt (hs 1 b v rfl rfl)], rfl⟩
  | _ :: _ :: _ :: _, _ :: _ :: _ :: _, _ => exact ⟨rfl, rfl⟩

section
variable [Layout]

theorem some_implements : Implements someHOutside someOutside where
  prim p ws hp w hp' h := by
    obtain ⟨n, hn, rfl, rfl⟩ := h
    refine ⟨⟨_, .word (w := .int n) rfl (.done _ _), by simp⟩, fun vs w0 v w1 hvs hw he => ?_⟩
    rw [(showsAll_arith hvs p).1] at hn
    simp only [coutside, someOutside, hn, Option.map_some, Option.some.injEq, Prod.mk.injEq] at he
    obtain ⟨rfl, rfl⟩ := he
    exact ⟨.int n, hw⟩
  native id ws hp w hp' h := by
    obtain ⟨n, hn, rfl, rfl⟩ := h
    refine ⟨⟨_, .word (w := .int n) rfl (.rest (.done _ _)), by simp⟩, fun vs w0 v w1 hvs hw he => ?_⟩
    rw [(showsAll_arith hvs "").2] at hn
    simp only [someOutside, hn, Option.map_some, Option.some.injEq, Prod.mk.injEq] at he
    obtain ⟨rfl, rfl⟩ := he
    exact ⟨.int n, by simp [hw.1], hw.2⟩

theorem some_answers : Answers someHOutside someOutside where
  prim p ws hp held vs w0 v w1 _ hvs _ _ he := by
    simp only [coutside, someOutside, Option.map_map, Option.map_eq_some_iff] at he
    obtain ⟨n, hn, -⟩ := he
    exact ⟨_, _, n, by rw [(showsAll_arith hvs p).1, hn], rfl, rfl⟩
  native id ws hp held vs w0 v w1 _ hvs _ _ he := by
    simp only [someOutside, Option.map_eq_some_iff] at he
    obtain ⟨n, hn, -⟩ := he
    exact ⟨_, _, n, by rw [(showsAll_arith hvs "").2, hn], rfl, rfl⟩

end

/-- `(set 'build (lambda (n) (if (= n 0) () (cons n (build (- n 1))))))` -/
def buildBody : Core := .ite (.app (v! "=") [v! "n", n! 0]) (.lit .nil) (.app (v! "cons") [v! "n", .app (v! "build") [.app (v! "-") [v! "n", n! 1]]])
def buildForm : Core := set! "build" (.lam [.named "n"] buildBody)
/-- `(build x)` -/
def listForm : Core := .app (v! "build") [v! "x"]
def buildFn : Val := .clo [.named "n"] buildBody []
def buildWorld (n : Nat) : World (List Int) := (worldOf n).set (.named "build") buildFn
/-- the numbers from `n` down to 1 -/
def downFrom : Nat → Val
  | 0 => .nil
  | n + 1 => .cons (.int (n + 1 : Nat)) (downFrom n)

def buildFile : List Lam := ((compile buildForm 0).map (·.1)).getD []
def listFile : List Lam := ((compile listForm 0).map (·.1)).getD []
theorem build_compiled : compile buildForm 0 = some (buildFile, 5) := rfl
theorem list_compiled : compile listForm 0 = some (listFile, 0) := rfl

theorem buildForC : ForC (someGen buildForm) 0 5 buildForm where
  fresh := by intro n hn; simp [buildForm, buildBody, Core.syms, Core.symss] at hn
  names := by simp [buildForm, buildBody, NoPrims, Core.binders, Core.binderss, Sym.isPrim, primArity]
  full := by simp [buildForm, buildBody, Core.full, Core.fulls, fullCall, primArity]
  tidy := by simp [buildForm, buildBody, Core.tidy, Core.tidys, Core.lets, Core.letss]
  apart := by simp [buildForm, buildBody, Core.apart, Core.aparts, Core.lets, Core.letss]
  consts := by simp [buildForm, buildBody, Core.writable, Core.writables, Datum.writable, Const.datum]
  table := rfl
  entries := entryOk_spec (by decide +kernel)
  vars := varsOk_spec (by decide +kernel)

theorem listForC : ForC (someGen listForm) 0 0 listForm where
  fresh := by intro n hn; simp [listForm, Core.syms, Core.symss] at hn
  names := by simp [listForm, NoPrims, Core.binders, Core.binderss, Sym.isPrim, primArity]
  full := by simp [listForm, Core.full, Core.fulls, fullCall, primArity]
  tidy := by simp [listForm, Core.tidy, Core.tidys, Core.lets, Core.letss]
  apart := by simp [listForm, Core.apart, Core.aparts, Core.lets, Core.letss]
  consts := by simp [listForm, Core.writable, Core.writables, Datum.writable, Const.datum]
  table := rfl
  entries := entryOk_spec (by decide +kernel)
  vars := varsOk_spec (by decide +kernel)

/-- the function makes a list of as many pairs -/
theorem build_eval (w : World (List Int)) (hw : w.globals (.named "build") = some buildFn) :
    ∀ n : Nat, XApply false someExt w buildFn [.int n] (downFrom n) w
  | 0 => by
    refine .clo _ _ _ _ _ _ (.now .nil) _ rfl (.then _ _ _ _ _ _ (.now (.bool true)) _ w _ ?_ (.lit ..))
    exact .prim _ _ _ _ "=" [.int 0, .int 0] [.now (.int 0), .now (.int 0)] _ w _ rfl
      (.cons _ _ _ _ _ _ _ _ _ _ (.local _ _ _ _ rfl) (.cons _ _ _ _ _ _ _ _ _ _ (.lit _ _ (.int 0)) (.nil ..))) rfl
      (.prim _ _ _ _ _ rfl (by simpa using prim_zero w 0))
  | n + 1 => by
    have ih := build_eval w hw n
    refine .clo _ _ _ _ _ _ (.now (downFrom (n + 1))) _ rfl (.else _ _ _ _ _ (.bool false) _ (.now (.bool false)) _ w _ ?_ (by simp) ?_)
    · exact .prim _ _ _ _ "=" [.int (n + 1 : Nat), .int 0] [.now (.int (n + 1 : Nat)), .now (.int 0)] _ w _ rfl
        (.cons _ _ _ _ _ _ _ _ _ _ (.local _ _ _ _ rfl) (.cons _ _ _ _ _ _ _ _ _ _ (.lit _ _ (.int 0)) (.nil ..))) rfl
        (.prim _ _ _ _ _ rfl (by simpa using prim_zero w (n + 1)))
    · refine .prim _ _ _ _ "cons" [.int (n + 1 : Nat), downFrom n] [.now (.int (n + 1 : Nat)), .now (downFrom n)] _ w _ rfl
        (.cons _ _ _ _ _ _ _ _ w _ (.local _ _ _ _ rfl) (.cons _ _ _ _ _ _ _ _ _ _ ?_ (.nil ..))) rfl (.prim _ _ _ _ _ rfl rfl)
      refine .app _ _ _ _ buildFn (.later (.named "build")) [.int n] [.now (.int n)] _ w w _ rfl (.global _ _ _ _ rfl hw)
        (.cons _ _ _ _ _ _ _ _ w _ ?_ (.nil ..)) (by simp [settle, Operand.get, hw]) ih
      exact .prim _ _ _ _ "-" [.int (n + 1 : Nat), .int 1] [.now (.int (n + 1 : Nat)), .now (.int 1)] _ w _ rfl
        (.cons _ _ _ _ _ _ _ _ _ _ (.local _ _ _ _ rfl) (.cons _ _ _ _ _ _ _ _ _ _ (.lit _ _ (.int 1)) (.nil ..))) rfl
        (.prim _ _ _ _ _ rfl (by simp [primApply, outside, someExt, arith2, valInt, arith]))

theorem build_session (n : Nat) : XSession false someExt (worldOf n)
    [(buildForm, buildFn, buildWorld n), (listForm, downFrom n, buildWorld n)] := by
  apply XSession.cons (o := .now buildFn)
  · sev
  apply XSession.cons (o := .now (downFrom n))
  · exact .app _ _ _ _ buildFn (.later (.named "build")) [.int n] [.later (.named "x")] _ _ _ _ rfl (.global _ _ _ _ rfl rfl)
      (.cons _ _ _ _ _ _ _ _ _ _ (.global _ _ _ _ rfl rfl) (.nil ..)) rfl (build_eval _ rfl n)
  exact .nil _

/-- The hypotheses hold of a session whose second file builds a list of `n` pairs, for any `n`, in a heap where the collector may
work at each of them. -/
example [Layout] (n : Nat) : LoadsHeap someOutside someHOutside aboveAll 3 [] (cworldOf n)
    [(buildFile, buildFn, buildWorld n), (listFile, downFrom n, buildWorld n)] := by
  have c1 : HeapFile 3 buildForm buildFile := ⟨_, _, _, buildForC, build_compiled, fitsFrame_of rfl, smallFrames_of rfl⟩
  have c2 : HeapFile 3 listForm listFile := ⟨_, _, _, listForC, list_compiled, fitsFrame_of rfl, smallFrames_of rfl⟩
  exact C80_heap_partial some_agree some_parametric some_keeps some_implements some_answers aboveAll_fresh (worldOf_plain n) (worldOf_sane n)
    [(buildForm, buildFile, buildFn, buildWorld n), (listForm, listFile, downFrom n, buildWorld n)] (build_session n) (by
      intro i hi
      rcases List.mem_cons.mp hi with h | hi
      · rw [h]; dsimp only; exact c1
      rcases List.mem_cons.mp hi with h | hi
      · rw [h]; dsimp only; exact c2
      · cases hi)

/-- The hypotheses of `C80_source_partial` hold of the first source file of C78. -/
example [Layout] : LoadsHeap someOutside someHOutside aboveAll 3 [] someCWorld [(lams1, twiceFn, world1)] := by
  have hsw : SaneWorld [] someCWorld := by
    intro x v h
    simp only [someCWorld] at h
    split at h
    · cases h; exact .native (by omega)
    split at h
    · cases h; exact .int 1
    · simp at h
  have hs : XSession false someExt someWorld [(prog1, twiceFn, world1)] := by
    apply XSession.cons (o := .now twiceFn)
    · sev
    exact .nil _
  have c1 : HeapSource someSetting 3 src1 prog1 lams1 := ⟨_, _, _, _, program1, progCompiled1, progForC1, fitsFrame_of rfl, smallFrames_of rfl⟩
  exact C80_source_partial some_agree some_parametric some_keeps some_implements some_answers aboveAll_fresh someWorld_plain hsw
    [(src1, prog1, lams1, twiceFn, world1)] hs (by
      intro i hi
      rcases List.mem_cons.mp hi with h | hi
      · rw [h]; dsimp only; exact c1
      · cases hi)

/-! A machine about to load a file: one block of eight slots, with the function objects of `load-so` and `log`. -/

section
/-- no large-object arenas -/
local instance heapLayout : Layout := ⟨fun _ => false⟩

def gc0 : St := (getBlock St.init 0 8).getD St.init
def gc1 : St := (allocStep gc0 0 []).1
def gc2 : St := (allocStep gc1 0 []).1

theorem gc2_run : Run ⟨gc2, [(0, 1), (0, 0)]⟩ := by
  have r0 : Run ⟨gc0, []⟩ := Run.step Run.init (Step.getBlock _ _ _ 0 8 rfl rfl (by decide) (GC.Witness.some_getD _ St.init (by decide)))
  have r1 : Run ⟨gc1, [(0, 0)]⟩ := Run.step r0 (Step.allocTake gc0 [] 0 [] gc1 (0, 0) (by decide) (by decide) (by simp) rfl)
  exact Run.step r1 (Step.allocTake gc1 _ 0 [] gc2 (0, 1) (by decide) (by decide) (by simp) rfl)

/-- `load-so` runs in the first segment -/
def heapMach (n : Nat) : HMach (List Int) where
  ctx := ⟨.native 1 2, 0, 0, 3⟩
  frames := [⟨.exit, 0, 0, 0⟩]
  begin_ := 0
  end_ := 256
  data := [0]
  segs := [0]
  mem := fun p => if p = 0 then .ptr (0, 0) else .nil
  res := .nil
  heap := { gc := gc2, cell := fun x => if x = (0, 0) then .fn (.native 1 2) 3 2 [] else .fn (.native 0 1) 2 1 [],
            globals := [(.named "log", .ptr (0, 1)), (.named "x", .int n)], rest := [] }

theorem heapMach_world (n : Nat) : ShowsWorld (heapMach n).heap (cworldOf n) := by
  refine ⟨rfl, fun x => ?_⟩
  simp only [heapMach, cworldOf, someCWorld, CWorld.set, hfind]
  by_cases h1 : x = .named "x"
  · subst h1
    exact .inr ⟨.int n, .int n, rfl, rfl, .int n⟩
  by_cases h2 : x = .named "log"
  · subst h2
    exact .inr ⟨.ptr (0, 1), .native 0 1, rfl, rfl, .native rfl⟩
  · left
    rw [if_neg (Ne.symm h2), if_neg (Ne.symm h1), if_neg h1, if_neg h2, if_neg h1]
    exact ⟨rfl, rfl⟩

theorem gc2_kids (x : SlotId) : (gc2.obj x).kids = [] := by
  have h : gc2.obj x = upd (upd St.init.obj (0, 0) (gc1.obj (0, 0))) (0, 1) (gc2.obj (0, 1)) x := rfl
  rw [h]
  simp only [upd]
  split
  · rfl
  split <;> rfl

theorem heapMach_in (n : Nat) : InHeap 3 (heapMach n) [(0, 1), (0, 0)] where
  self := ⟨.native 1 2, .native rfl, rfl⟩
  holds := by intro p hp; cases hp; simp
  heap := by
    refine ⟨gc2_run, fun x _ => ?_, ?_⟩
    · show (gc2.obj x).kids = _
      rw [gc2_kids]
      simp only [heapMach]
      split <;> rfl
    · intro q hq
      simp only [heapMach, List.mem_cons, List.not_mem_nil, or_false] at hq
      rcases hq with rfl | rfl <;> intro p hp <;> cases hp
      simp
  size := rfl
  some := by decide
  top := ⟨[], rfl⟩
  last := rfl
  low := Nat.le_refl _
  high := (by decide : 3 < 256)
  there := fun _ h => h
  once := by simp [heapMach]
  apart := by simp [heapMach]

/-! ### where the collector frees what is still needed -/

/-- `(do (set 'f (lambda (a) (do (cons 3 (cons 4 ())) a))) (do (set 'g (lambda (p) (car p))) (f g (cons 1 2))))` -/
def lostBody : Core := .seq (.app (v! "cons") [n! 3, .app (v! "cons") [n! 4, .lit .nil]]) (v! "a")
def lostForm : Core := .seq (set! "f" (.lam [.named "a"] lostBody))
  (.seq (set! "g" (.lam [.named "p"] (.app (v! "car") [v! "p"]))) (.app (v! "f") [v! "g", .app (v! "cons") [n! 1, n! 2]]))
def lostFile : List Lam := ((compile lostForm 0).map (·.1)).getD []
theorem lost_compiled : compile lostForm 0 = some (lostFile, 6) := rfl

theorem lostForC : ForC (someGen lostForm) 0 6 lostForm where
  fresh := by intro n hn; simp [lostForm, lostBody, Core.syms, Core.symss] at hn
  names := by simp [lostForm, lostBody, NoPrims, Core.binders, Core.binderss, Sym.isPrim, primArity]
  full := by simp [lostForm, lostBody, Core.full, Core.fulls, fullCall, primArity]
  tidy := by simp [lostForm, lostBody, Core.tidy, Core.tidys, Core.lets, Core.letss]
  apart := by simp [lostForm, lostBody, Core.apart, Core.aparts, Core.lets, Core.letss]
  consts := by simp [lostForm, lostBody, Core.writable, Core.writables, Datum.writable, Const.datum]
  table := rfl
  entries := entryOk_spec (by decide +kernel)
  vars := varsOk_spec (by decide +kernel)

def fFn : Val := .clo [.named "a"] lostBody []
def gFn : Val := .clo [.named "p"] (.app (v! "car") [v! "p"]) []
def lostWorld : World (List Int) := ((worldOf 0).set (.named "f") fFn).set (.named "g") gFn

theorem lost_session : Session someExt (worldOf 0) [(lostForm, .int 1, lostWorld)] := by
  apply XSession.cons (o := .now (.int 1))
  · sev
  exact .nil _

/-- the functions and the pair are allocated -/
def gc3 : St := (allocStep gc2 0 []).1
def gc4 : St := (allocStep gc3 0 []).1
def gc5 : St := (allocStep gc4 0 [none, none]).1
/-- a cycle from start to end, with the roots that `coraRun` finds while it runs `f` -/
def lostRoots : List (Option SlotId) := [some (0, 1), none, some (0, 2), some (0, 3), some (0, 2), some (0, 3), none,
  some (0, 2), some (0, 3), some (0, 2), some (0, 3), none]
def gc6 : St := (gcMarkRoot gc5 lostRoots).getD St.init
def gc7 : St := (gcRunIncremental1 gc6).getD St.init
def gc8 : St := (gcRunIncremental1 gc7).getD St.init
def gc9 : St := (gcRunIncremental1 gc8).getD St.init
def gc10 : St := (gcRunIncremental1 gc9).getD St.init
/-- `(cons 4 ())` takes slot 0, three slots are skipped, `(cons 3 ...)` takes the slot of the pair -/
def gc11 : St := (allocStep gc10 0 [none, none]).1
def gc12 : St := (allocStep gc11 0 []).1
def gc13 : St := (allocStep gc12 0 []).1
def gc14 : St := (allocStep gc13 0 []).1
def gc15 : St := (allocStep gc14 0 [none, some (0, 0)]).1

theorem newSmall {hp : Heap (List Int)} {c : Cell} {g1 g2 : St} {x : SlotId} (hw : Work hp.gc hp.cell g1 hp.cell) (h1 : g1.listed 0 = true)
    (h2 : g1.curr 0 < g1.nslots 0) (h3 : (allocStep g1 0 c.kids).1 = g2) (h4 : (allocStep g1 0 c.kids).2 = some x) :
    NewObj hp c { hp with gc := g2, cell := upd hp.cell x c } x :=
  .small hw h1 h2 (Prod.ext h3 h4)

/-- the first pair is allocated after the whole cycle -/
theorem lost_work1 (cell : SlotId → Cell) : Work gc6 cell gc10 cell := by
  have h7 : gcRunIncremental1 gc6 = some gc7 := GC.Witness.some_getD _ _ (by decide +kernel)
  have h8 : gcRunIncremental1 gc7 = some gc8 := GC.Witness.some_getD _ _ (by decide +kernel)
  have h9 : gcRunIncremental1 gc8 = some gc9 := GC.Witness.some_getD _ _ (by decide +kernel)
  have h10 : gcRunIncremental1 gc9 = some gc10 := GC.Witness.some_getD _ _ (by decide +kernel)
  exact .more (.more (.more (.more (.none _ _) (.run (by decide +kernel) h7) fun _ _ => rfl) (.run (by decide +kernel) h8) fun _ _ => rfl)
    (.run (by decide +kernel) h9) fun _ _ => rfl) (.run (by decide +kernel) h10) fun _ _ => rfl

theorem lost_work2 (cell : SlotId → Cell) : Work gc11 cell gc14 cell := by
  exact .more (.more (.more (.none _ _) (.skip 0 (by decide +kernel) (by decide +kernel) (Prod.ext (y := (gc12, none)) rfl (by decide +kernel))) fun _ _ => rfl)
    (.skip 0 (by decide +kernel) (by decide +kernel) (Prod.ext (y := (gc13, none)) rfl (by decide +kernel))) fun _ _ => rfl)
    (.skip 0 (by decide +kernel) (by decide +kernel) (Prod.ext (y := (gc14, none)) rfl (by decide +kernel))) fun _ _ => rfl

/-- the body of `f`, after the start of a cycle -/
def lostLam (i : Nat) : Lam := lostFile.getD i ⟨[], .ret (.const .nil), []⟩

def cellF : Cell := .fn (.code 0 0) 2 1 []
def cellG : Cell := .fn (.code 0 1) 2 1 []
def cells5 : SlotId → Cell := upd (upd (upd (heapMach 0).heap.cell (0, 2) cellF) (0, 3) cellG) (0, 4) (.cons (.int 1) (.int 2))
def cells15 : SlotId → Cell := upd (upd cells5 (0, 0) (.cons (.int 4) .nil)) (0, 4) (.cons (.int 3) (.ptr (0, 0)))
def glob5 : List (Spec.Lang.Sym × Word) := [(.named "log", .ptr (0, 1)), (.named "x", .int 0), (.named "f", .ptr (0, 2)), (.named "g", .ptr (0, 3))]

/-- the machine before the call -/
def mach5 : HMach (List Int) :=
  { heapMach 0 with
    ctx := ⟨.code 0 2, 0, 0, 0⟩
    frames := [⟨.exit, 0, 0, 3⟩, ⟨.exit, 0, 0, 0⟩]
    heap := ⟨gc5, cells5, glob5, []⟩ }

theorem lost_top : HBlock someHOutside 0 (lostLam 2) ((heapMach 0).loadSo 0 2) mach5 (.call (.ptr (0, 2)) [.ptr (0, 3), .ptr (0, 4)]) := by
  refine .start rfl ?_
  refine .prim (.cons (.const rfl) (.cons (.closure (x := (0, 2)) rfl (newSmall (g2 := gc3) (.none _ _) ?_ ?_ rfl ?_)) (.nil _))) (.set rfl rfl) ?_
  · decide +kernel
  · decide +kernel
  · decide +kernel
  refine .prim (.cons (.const rfl) (.cons (.closure (x := (0, 3)) rfl (newSmall (g2 := gc4) (.none _ _) ?_ ?_ rfl ?_)) (.nil _))) (.set rfl rfl) ?_
  · decide +kernel
  · decide +kernel
  · decide +kernel
  refine .prim (.cons (.const rfl) (.cons (.const rfl) (.nil _))) (.new (x := (0, 4)) rfl (newSmall (g2 := gc5) (.none _ _) ?_ ?_ rfl ?_)) ?_
  · decide +kernel
  · decide +kernel
  · decide +kernel
  exact .tail (.global rfl) (.cons (.global rfl) (.cons (.ref rfl) (.nil _)))

/-- the machine in the nested run -/
def mach6 : HMach (List Int) :=
  { mach5 with
    ctx := ⟨.code 0 0, 0, 0, 2⟩
    frames := [⟨.exit, 0, 0, 2⟩, ⟨.exit, 0, 0, 3⟩, ⟨.exit, 0, 0, 0⟩]
    mem := storeW (heapMach 0).mem 0 [.ptr (0, 2), .ptr (0, 3)]
    heap := ⟨gc6, cells5, glob5, []⟩ }

/-- the machine after it -/
def mach15 : HMach (List Int) := { mach6 with heap := ⟨gc15, cells15, glob5, []⟩ }

theorem lost_inner : HBlock someHOutside 0 (lostLam 0) mach6 mach15 (.ret (.ptr (0, 3))) := by
  refine .start rfl ?_
  refine .prim (.cons (.const rfl) (.cons (.const rfl) (.nil _))) (.new (x := (0, 0)) rfl (newSmall (g2 := gc11) (lost_work1 _) ?_ ?_ rfl ?_)) ?_
  · decide +kernel
  · decide +kernel
  · decide +kernel
  refine .prim (.cons (.const rfl) (.cons (.ref rfl) (.nil _))) (.new (x := (0, 4)) rfl (newSmall (g2 := gc15) (lost_work2 _) ?_ ?_ rfl ?_)) ?_
  · decide +kernel
  · decide +kernel
  · decide +kernel
  exact .ret (.ref rfl)

theorem lost_ends : ∃ h, HGo aboveAll someHOutside [lostFile] ((heapMach 0).loadSo 0 (lostFile.length - 1)) none h ∧ h.res = .int 3 := by
  have hroots : gcMarkRoot gc5 lostRoots = some gc6 := GC.Witness.some_getD _ _ (by decide +kernel)
  refine ⟨_, .code (code := lostFile) (lam := lostLam 2) rfl rfl rfl rfl lost_top
    (.callMore (h1 := { mach6 with frames := mach5.frames, heap := mach5.heap }) (h2 := { mach15 with ctx := ⟨.exit, 0, 0, 2⟩, frames := mach5.frames, res := .ptr (0, 3) })
      (code := .code 0 0) (nframe := 2) (required := 1) (data := []) rfl (by decide) rfl
      (.collect rfl hroots (.code (code := lostFile) (lam := lostLam 0) rfl rfl rfl rfl lost_inner (.ret rfl (.exit rfl))))
      (.call (code := .code 0 1) (nframe := 2) (data := []) rfl rfl (.code (code := lostFile) (lam := lostLam 1) rfl rfl rfl rfl
        (.start rfl (.prim (.cons (.ref rfl) (.nil _)) (.now (w := .int 3) rfl) (.ret (.ref rfl)))) (.ret rfl (.exit rfl))))), rfl⟩

/-- A function is called with more arguments than it takes, and the last of them is a new pair: `(f g (cons 1 2))`. While `f`
runs, the pair is in no register and no variable that the collector knows: a cycle frees it, and the next pair takes its place. The
program has the value 1, but with the collector at work its compiled file may end with 3. -/
theorem C80_pending_arguments_wrong : Session someExt (worldOf 0) [(lostForm, .int 1, lostWorld)] ∧ HeapFile 3 lostForm lostFile ∧
    ShowsWorld (heapMach 0).heap (cworldOf 0) ∧ InHeap 3 (heapMach 0) [(0, 1), (0, 0)] ∧
    ∃ h, HSteps aboveAll someHOutside [lostFile] ⟨(heapMach 0).loadSo 0 (lostFile.length - 1), .go, []⟩ ⟨h, .go, []⟩ ∧ h.ctx.fn = .exit ∧
      h.res = .int 3 := by
  obtain ⟨h, hg, hr⟩ := lost_ends
  exact ⟨lost_session, ⟨_, _, _, lostForC, lost_compiled, fitsFrame_of rfl, smallFrames_of rfl⟩, heapMach_world 0, heapMach_in 0,
    h, go_steps hg [], go_exit hg, hr⟩

/-- The two ways to describe runs agree. -/
theorem C80_runs [Layout] {W : Type} {malloc : List Nat → Nat} {HO : HOutside W} {units : List (List Lam)} {h h' : HMach W} :
    HGo malloc HO units h none h' ↔ HSteps malloc HO units ⟨h, .go, []⟩ ⟨h', .go, []⟩ ∧ h'.ctx.fn = .exit :=
  ⟨fun hg => ⟨go_steps hg [], go_exit hg⟩, fun hs => steps_go (a := none) hs.1 hs.2⟩

end

end Cora.Compile
