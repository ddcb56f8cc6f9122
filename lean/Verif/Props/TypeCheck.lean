import Verif.Lemmas.InferTotal
import Verif.Lemmas.InferSafe
import Verif.Lemmas.InferDefine
/-
C70: the type checker accepts exactly the programs that have a type, and accepted programs do not go wrong.
-/
open Spec.Types
namespace Cora.Infer

/-- lib/infer.cora:210-218 `check-type!` as lib/toc.cora:624 calls it: with a new type variable. The answer is the
substitution; the type found is what it says of that variable. -/
def typecheck (n : Nat) (σ : St) (e : Exp) : Option (URes × St) := check n e (.var σ.next) [] [] (σ.tvars 1)

/-- the global names whose declared type is built from constants and functions -/
def Declares (tenv : List (String × Ty)) (decl : String → Option Ty) : Prop :=
  ∀ x T, decl x = some T ↔ look x tenv = some T ∧ T.ground ∧ T.plain

/-- a program without free local names that calls only such global names -/
def Program (decl : String → Option Ty) (e : Exp) : Prop := Calls (fun x => decl x ≠ none) [] false e

theorem Program.calls {tenv : List (String × Ty)} {decl : String → Option Ty} (hd : Declares tenv decl) {e : Exp}
    (h : Program decl e) : Calls (Declared tenv) [] false e := by
  have key : ∀ {L op e}, Calls (fun x => decl x ≠ none) L op e → Calls (Declared tenv) L op e := by
    intro L op e h
    induction h with
    | num => exact .num
    | bool => exact .bool
    | str => exact .str
    | quote => exact .quote
    | loc h => exact .loc h
    | @glob L x op h1 h2 =>
      refine .glob h1 ?_
      cases hx : decl x with
      | none => exact absurd hx h2
      | some T => exact ⟨T, (hd x T).mp hx⟩
    | ite _ _ _ a b c => exact .ite a b c
    | seq _ h _ a b => exact .seq a h b
    | lam _ a => exact .lam a
    | letE _ _ a b => exact .letE a b
    | app _ _ a b => exact .app a b
  exact key h

theorem pre_start {t : Ty} {σ : St} (ht : t.plain) (hv : ∀ y, t.has y → y < σ.next) : Pre [] t [] σ :=
  ⟨.nil, fun p hp => (by cases hp), fun p hp => (by cases hp), fun p hp => (by cases hp), fun p hp => (by cases hp), ht, hv⟩

theorem ok_start {t : Ty} {σ : St} (hv : ∀ y, t.has y → y < σ.next) : Ok [] t [] σ :=
  ⟨.nil, fun p hp => (by cases hp), fun p hp => (by cases hp), hv⟩

/-- the answer of the checker is solved by the types the program has, and by no others -/
theorem check_types {decl : String → Option Ty} {n a : Nat} {σ σ' : St} {e : Exp} {s : Subst} (ha : a < σ.next)
    (hd : Declares σ.tenv decl) (hp : Program decl e) (h : check n e (.var a) [] [] σ = some (.succ s, σ')) :
    σ'.tenv = σ.tenv ∧ WF s ∧ (∀ p ∈ s, p.2.plain) ∧ (∀ θ, Solves θ s → HasType decl [] e (θ a)) ∧
      ∀ T, HasType decl [] e T → ∃ θ, Solves θ s ∧ θ a = T := by
  have hv : ∀ y, (Ty.var a).has y → y < σ.next := fun y hy => by cases hy; exact ha
  obtain ⟨m, rfl, hm⟩ := check_plain (t := .var a) trivial h
  obtain ⟨q, ht, _⟩ := checkH_sound σ.tenv decl (fun x T h1 h2 h3 => (hd x T).mpr ⟨h1, h2, h3⟩) m (env := []) (hp.calls hd)
    (pre_start (t := .var a) trivial hv) rfl hm (fun h => by cases h)
  refine ⟨q.tenv, q.wf, q.plain, fun θ hθ => ht θ hθ, fun T hT => ?_⟩
  obtain ⟨k, s2, σ2, _, c, _, _, _, _, θ, h1, h2⟩ := check_complete (tenv := σ.tenv)
    (fun x T h => ⟨((hd x T).mp h).1, ((hd x T).mp h).2.1⟩) hT (env := []) (t := .var a) (s := []) (σ := σ)
    (θ := fun _ => T) rfl rfl (ok_start hv) rfl (fun p hp => by cases hp)
  have h := check_mono (Nat.le_max_left (m + 1) k) h
  rw [c _ (Nat.le_max_right _ _)] at h
  cases h
  exact ⟨θ, h1, h2 a ha⟩

/-- what the answer says of the variable is the most general type -/
theorem check_principal {decl : String → Option Ty} {n a : Nat} {σ σ' : St} {e : Exp} {s : Subst} (ha : a < σ.next)
    (hd : Declares σ.tenv decl) (hp : Program decl e) (h : check n e (.var a) [] [] σ = some (.succ s, σ')) {m : Nat} {T : Ty}
    (hm : applySubst m (.var a) s = some T) (U : Ty) : HasType decl [] e U ↔ ∃ θ, U = T.inst θ := by
  obtain ⟨_, h1, _, h2, h3⟩ := check_types ha hd hp h
  obtain ⟨θ0, h4, h5⟩ := h1.solution
  obtain ⟨m', hm'⟩ := h5 (.var a)
  obtain rfl := applySubst_det hm hm'
  constructor
  · intro hU
    obtain ⟨θ, k1, k2⟩ := h3 U hU
    exact ⟨θ, by rw [applySubst_inst k1 hm]; exact k2.symm⟩
  · rintro ⟨θ, rfl⟩
    have comp : ∀ t : Ty, (t.inst θ0).inst θ = t.inst fun y => (θ0 y).inst θ := by
      intro t
      induction t with
      | var v => rfl
      | con c => rfl
      | thunk t ih => simp only [Ty.inst, ih]
      | list t ih => simp only [Ty.inst, ih]
      | arrow a b iha ihb => simp only [Ty.inst, iha, ihb]
    exact h2 (fun y => (θ0 y).inst θ) fun p hp => by rw [← comp, ← h4 p hp]

/-- an accepted program has the type the checker finds, and every instance of it, and no other type -/
theorem C70_type_partial (decl : String → Option Ty) (n : Nat) (σ σ' : St) (e : Exp) (s : Subst) (hd : Declares σ.tenv decl)
    (hp : Program decl e) (h : typecheck n σ e = some (.succ s, σ')) :
    ∃ m T, applySubst m (.var σ.next) s = some T ∧ ∀ U, HasType decl [] e U ↔ ∃ θ, U = T.inst θ := by
  obtain ⟨_, h1, _⟩ := check_types (σ := σ.tvars 1) (Nat.lt_succ_self _) hd hp h
  obtain ⟨m, T, hm⟩ := h1.total (.var σ.next)
  exact ⟨m, T, hm, check_principal (σ := σ.tvars 1) (Nat.lt_succ_self _) hd hp h hm⟩

/-- an accepted program does not go wrong: whatever the declared functions do within their types, its evaluation never
calls what is no function, tests what is no boolean, calls a declared function with an argument of another kind or meets a
name without value; and if it gives a value, then one of the type found. Missing: programs that call functions without
declared type, `do` after an expression with local names, `()` and functions without parameter. -/
theorem C70_safe_partial (decl : String → Option Ty) (n : Nat) (σ σ' : St) (e : Exp) (s : Subst) (hd : Declares σ.tenv decl)
    (hp : Program decl e) (h : typecheck n σ e = some (.succ s, σ')) :
    ∃ m T, applySubst m (.var σ.next) s = some T ∧ ∀ G, Keeps decl G → ∀ k,
      eval decl G k [] e ≠ .wrong ∧ ∀ v, eval decl G k [] e = .val v → v.kind T = true := by
  obtain ⟨m, T, hm, hT⟩ := C70_type_partial decl n σ σ' e s hd hp h
  obtain ⟨_, _, hpl, _⟩ := check_types (σ := σ.tvars 1) (Nat.lt_succ_self _) hd hp h
  have hTp : T.plain := applySubst_plain hpl hm trivial
  have hmono : Mono decl := fun x T h => ((hd x T).mp h).2
  refine ⟨m, T, hm, fun G hG k => ?_⟩
  have hs : ∀ θ, Safe decl (T.inst θ) (eval decl G k [] e) := fun θ =>
    eval_safe hmono hG k ((hT _).mpr ⟨θ, rfl⟩) ⟨fun _ => ⟨fun _ => rfl, fun _ => rfl⟩, fun _ _ _ h => by cases h⟩
  constructor
  · intro hw
    have := hs fun _ => .con ""
    rw [hw] at this
    exact this
  · intro v hv
    have hs : ∀ θ, VTy decl v (T.inst θ) := fun θ => by
      have := hs θ
      rw [hv] at this
      exact this
    cases T with
    | var y =>
      have := (hs fun _ => .list (.con "")).kind
      cases v <;> cases this
    | con c => exact (hs fun _ => .con "").kind
    | thunk t => exact hTp.elim
    | list t => exact hTp.elim
    | arrow a b =>
      have := (hs fun _ => .con "").kind
      cases v <;> first | rfl | cases this

/-- every program that has a type is accepted (here also functions without parameter and any `do`) -/
theorem C70_complete_partial (decl : String → Option Ty) (σ : St) (e : Exp) (hd : Declares σ.tenv decl) (T : Ty)
    (h : HasType decl [] e T) : ∃ n s σ', ∀ m, n ≤ m → typecheck m σ e = some (.succ s, σ') := by
  obtain ⟨k, s, σ', _, c, _⟩ := check_complete (tenv := σ.tenv)
    (fun x T h => ⟨((hd x T).mp h).1, ((hd x T).mp h).2.1⟩) h (env := []) (t := .var σ.next) (s := []) (σ := σ.tvars 1)
    (θ := fun _ => T) rfl rfl (ok_start fun y hy => by cases hy; exact Nat.lt_succ_self _) rfl (fun p hp => by cases hp)
  exact ⟨k, s, σ', c⟩

/-- the checker decides whether a program has a type: it ends, with a success if there is one and with a failure if there
is none. Missing as above. -/
theorem C70_decides_partial (decl : String → Option Ty) (σ : St) (e : Exp) (hd : Declares σ.tenv decl) (hp : Program decl e) :
    (∃ n s σ', typecheck n σ e = some (.succ s, σ') ∧ ∃ T, HasType decl [] e T) ∨
      (∃ n σ', typecheck n σ e = some (.fail, σ') ∧ ¬ ∃ T, HasType decl [] e T) := by
  obtain ⟨n, ⟨r, σ'⟩, _, h⟩ := check_total (hp.calls hd) rfl
    (pre_start (t := .var σ.next) (σ := σ.tvars 1) trivial fun y hy => by cases hy; exact Nat.lt_succ_self _) rfl (fun h => by cases h)
  have hn := h n (Nat.le_refl _)
  cases r with
  | succ s =>
    obtain ⟨m, T, _, hT⟩ := C70_type_partial decl n σ σ' e s hd hp hn
    exact .inl ⟨n, s, σ', hn, _, (hT _).mpr ⟨fun _ => .con "", rfl⟩⟩
  | fail =>
    refine .inr ⟨n, σ', hn, fun ⟨T, hT⟩ => ?_⟩
    obtain ⟨k, s2, σ2, c⟩ := C70_complete_partial decl σ e hd T hT
    have h1 := h _ (Nat.le_max_left n k)
    have h2 := c _ (Nat.le_max_right n k)
    rw [typecheck, h1] at h2
    cases h2

/-- a definition of a new name: the name gets the most general type of its value, and the other declarations stay -/
theorem C70_define_partial (decl : String → Option Ty) (n : Nat) (σ σ' : St) (x : String) (v : Exp) (s : Subst)
    (hd : Declares σ.tenv decl) (hp : Program decl v) (hx : look x σ.tenv = none)
    (h : typecheck n σ (.set x v) = some (.succ s, σ')) :
    ∃ T, σ'.tenv = (x, T) :: σ.tenv ∧ ∀ U, HasType decl [] v U ↔ ∃ θ, U = T.inst θ := by
  obtain ⟨n, rfl, hh⟩ := check_plain (t := .var σ.next) trivial (show check n _ _ _ _ _ = _ from h)
  cases n with
  | zero => cases hh
  | succ n =>
    clear h
    have h := hh
    unfold checkH at h
    dsimp only at h
    rw [show look x (σ.tvars 1).tenv = none from hx] at h
    dsimp only at h
    obtain ⟨s1, σ1, h1, h⟩ := bindS_succ h
    have h1 : check n v (.var (σ.next + 1)) (σ.tvars 2).tenv [] (σ.tvars 2) = some (.succ s1, σ1) := h1
    rw [check_decls (hp.calls hd)] at h1
    split at h
    · cases h
    · rename_i T hT
      cases h
      have ha : σ.next + 1 < (σ.tvars 2).next := by show σ.next + 1 < σ.next + 2; omega
      have := check_types (σ := σ.tvars 2) ha hd hp h1
      exact ⟨T, by rw [this.1]; rfl, check_principal (σ := σ.tvars 2) ha hd hp h1 hT⟩

/-- a definition of a name with a declared type is accepted if and only if its value has that type -/
theorem C70_redefine_partial (decl : String → Option Ty) (σ : St) (x : String) (v : Exp) (T : Ty)
    (hd : Declares σ.tenv decl) (hp : Program decl v) (hx : decl x = some T) :
    (∃ n s σ', typecheck n σ (.set x v) = some (.succ s, σ')) ↔ HasType decl [] v T := by
  obtain ⟨hl, hg, hpl⟩ := (hd x T).mp hx
  have hv : ∀ y, T.has y → y < (σ.tvars 1).next := fun y hy => absurd hy (hg y)
  constructor
  · rintro ⟨n, s, σ', h⟩
    obtain ⟨n, rfl, hh⟩ := check_plain (t := .var σ.next) trivial (show check n _ _ _ _ _ = _ from h)
    cases n with
    | zero => cases hh
    | succ n =>
      clear h
      have h := hh
      unfold checkH at h
      dsimp only at h
      rw [show look x (σ.tvars 1).tenv = some T from hl] at h
      obtain ⟨m, rfl, hm⟩ := check_plain hpl h
      obtain ⟨q, ht, _⟩ := checkH_sound σ.tenv decl (fun x T h1 h2 h3 => (hd x T).mpr ⟨h1, h2, h3⟩) m (env := []) (hp.calls hd)
        (pre_start hpl hv) rfl hm (fun h => by cases h)
      obtain ⟨θ, h1, _⟩ := q.wf.solution
      have := ht θ h1
      rwa [inst_ground hg] at this
  · intro h
    obtain ⟨k, s, σ', _, c, _⟩ := check_complete (tenv := σ.tenv)
      (fun x T h => ⟨((hd x T).mp h).1, ((hd x T).mp h).2.1⟩) h (env := []) (t := T) (s := []) (σ := σ.tvars 1)
      (θ := fun _ => T) rfl (inst_ground hg).symm (ok_start hv) rfl (fun p hp => by cases hp)
    refine ⟨k + 2, s, σ', ?_⟩
    simp only [typecheck, check, checkH]
    rw [show look x (σ.tvars 1).tenv = some T from hl]
    exact c k (Nat.le_refl _)

/-- `(cons e1 (cons e2 … ()))` -/
def listExp : List Exp → Exp
  | [] => .nil
  | e :: es => .consE e (listExp es)

theorem check_list {decl : String → Option Ty} {tenv : List (String × Ty)} (hd : Declares tenv decl) {T : Ty} (hg : T.ground)
    (hpl : T.plain) (es : List Exp) : ∀ {s : Subst} {σ : St}, (∀ e ∈ es, Program decl e) → σ.tenv = tenv → Pre [] T s σ →
      ((∃ n s' σ', check n (listExp es) (.list T) [] s σ = some (.succ s', σ')) ↔ ∀ e ∈ es, HasType decl [] e T) := by
  induction es with
  | nil => intro s σ _ _ _; exact ⟨fun _ _ h => (by cases h), fun _ => ⟨1, s, σ, by simp only [listExp, check]⟩⟩
  | cons e es ih =>
    intro s σ hp hσ hpre
    have hpe := hp e List.mem_cons_self
    have hpes : ∀ e ∈ es, Program decl e := fun e he => hp e (List.mem_cons_of_mem _ he)
    have sound : ∀ {n s' σ'}, check n e T [] s σ = some (.succ s', σ') →
        Post [] T s σ s' σ' ∧ HasType decl [] e T := by
      intro n s' σ' h
      obtain ⟨m, rfl, hm⟩ := check_plain hpl h
      obtain ⟨q, ht, _⟩ := checkH_sound tenv decl (fun x T h1 h2 h3 => (hd x T).mpr ⟨h1, h2, h3⟩) m (env := []) (hpe.calls hd)
        hpre hσ hm (fun h => by cases h)
      obtain ⟨θ, h1, _⟩ := q.wf.solution
      have := ht θ h1
      rw [inst_ground hg] at this
      exact ⟨q, this⟩
    constructor
    · rintro ⟨n, s', σ', h⟩
      cases n with
      | zero => cases h
      | succ n =>
        simp only [listExp, check] at h
        obtain ⟨s1, σ1, h1, h2⟩ := bindS_succ h
        obtain ⟨q, ht⟩ := sound h1
        have := (ih hpes (by rw [q.tenv, hσ]) (hpre.next q hpl fun y hy => absurd hy (hg y))).mp ⟨n, s', σ', h2⟩
        intro e' he
        rcases List.mem_cons.mp he with rfl | he
        · exact ht
        · exact this e' he
    · intro h
      obtain ⟨θ, hθ, _⟩ := hpre.wf.solution
      obtain ⟨k, s1, σ1, _, c, _⟩ := check_complete (tenv := tenv)
        (fun x T h => ⟨((hd x T).mp h).1, ((hd x T).mp h).2.1⟩) (h e List.mem_cons_self) (env := []) (t := T) (s := s) (σ := σ)
        (θ := θ) rfl (inst_ground hg).symm ⟨hpre.wf, hpre.sub, hpre.env, hpre.ty⟩ hσ hθ
      obtain ⟨q, _⟩ := sound (c k (Nat.le_refl _))
      obtain ⟨n, s', σ', h2⟩ := (ih hpes (by rw [q.tenv, hσ]) (hpre.next q hpl fun y hy => absurd hy (hg y))).mpr
        fun e he => h e (List.mem_cons_of_mem _ he)
      refine ⟨max k n + 1, s', σ', ?_⟩
      simp only [listExp, check, c _ (Nat.le_max_left k n), bindS]
      exact check_mono (Nat.le_max_right k n) h2

/-- a list is accepted as a list of elements of a type if and only if all its elements have that type -/
theorem C70_list_partial (decl : String → Option Ty) (σ : St) (es : List Exp) (T : Ty) (hd : Declares σ.tenv decl)
    (hp : ∀ e ∈ es, Program decl e) (hg : T.ground) (hpl : T.plain) :
    (∃ n s σ', check n (listExp es) (.list T) [] [] σ = some (.succ s, σ')) ↔ ∀ e ∈ es, HasType decl [] e T :=
  check_list hd hg hpl es hp rfl (pre_start hpl fun y hy => absurd hy (hg y))

/-! ### programs -/

/-- `(+ x y)` and the like -/
def call2 (f : String) (a b : Exp) : Exp := .app (.app (.var f) a) b

/-- lib/infer.cora:199, 202 two of the declarations -/
def tenv0 : List (String × Ty) :=
  [("+", .arrow (.con "int") (.arrow (.con "int") (.con "int"))), ("=", .arrow (.var 1) (.arrow (.var 2) (.con "bool")))]

def decl0 (x : String) : Option Ty :=
  if x = "+" then some (.arrow (.con "int") (.arrow (.con "int") (.con "int"))) else none

/-- addition -/
def G0 : String → List Val → Option Val
  | "+", [.int a, .int b] => some (.int (a + b))
  | _, _ => none

def σ0 : St := ⟨1000, tenv0⟩

theorem declares0 : Declares tenv0 decl0 := by
  intro x T
  unfold decl0 tenv0
  simp only [look]
  by_cases h : x = "+"
  · rw [if_pos h, if_pos h]
    constructor
    · intro e
      refine ⟨e, ?_⟩
      cases e
      refine ⟨?_, ⟨trivial, trivial, trivial⟩⟩
      rintro y (h | h | h) <;> exact h
    · exact fun h => h.1
  · rw [if_neg h, if_neg h]
    constructor
    · intro e; cases e
    · rintro ⟨e, hg, _⟩
      split at e
      · cases e; exact absurd (.inl rfl) (hg 1)
      · cases e

theorem keeps0 : Keeps decl0 G0 := by
  intro g T args c v hg hT hv
  unfold G0 at hv
  split at hv
  · cases hv
    simp only [decl0, if_true] at hg
    cases hg
    cases hT
    rfl
  · cases hv

def accepted (e : Exp) : Bool :=
  match typecheck 100 σ0 e with
  | some (.succ _, _) => true
  | _ => false

def refused (e : Exp) : Bool :=
  match typecheck 100 σ0 e with
  | some (.fail, _) => true
  | _ => false

/-- `(let twice (lambda (x) (+ x x)) (lambda (b) (if b (+ 1 2) 3)))` -/
def good : Exp := .letE "twice" (.lam "x" (call2 "+" (.var "x") (.var "x"))) (.lam "b" (.ite (.var "b") (call2 "+" (.num 1) (.num 2)) (.num 3)))

example : Program decl0 good ∧ accepted good = true := by
  refine ⟨?_, by decide⟩
  have hplus : ∀ L, "+" ∉ L → ∀ a b, Calls (fun x => decl0 x ≠ none) L false a → Calls (fun x => decl0 x ≠ none) L false b →
      Calls (fun x => decl0 x ≠ none) L false (call2 "+" a b) :=
    fun L hL a b ha hb => .app (.app (.glob hL (by decide)) ha) hb
  exact .letE (.lam (hplus _ (by decide) _ _ (.loc (by decide)) (.loc (by decide))))
    (.lam (.ite (.loc (by decide)) (hplus _ (by decide) _ _ .num .num) .num))

/-- `(+ true 2)` is a program and is refused -/
example : Program decl0 (call2 "+" (.bool true) (.num 2)) ∧ refused (call2 "+" (.bool true) (.num 2)) = true :=
  ⟨.app (.app (.glob (by decide) (by decide)) .bool) .num, by decide⟩

/-- `(set 'inc (lambda (n) (+ n 1)))`: from then on `inc` is a function from numbers to numbers -/
example : look "inc" tenv0 = none ∧ Program decl0 (.lam "n" (call2 "+" (.var "n") (.num 1))) ∧
    ((typecheck 100 σ0 (.set "inc" (.lam "n" (call2 "+" (.var "n") (.num 1))))).bind fun r => look "inc" r.2.tenv) =
      some (.arrow (.con "int") (.con "int")) :=
  ⟨by decide, .lam (.app (.app (.glob (by decide) (by decide)) (.loc (by decide))) .num), by decide⟩

/-- `+` may not be redefined as a number -/
example : refused (.set "+" (.num 1)) = true := by decide

/-- `(list 1 (+ 1 2))` is a list of numbers, `(list 1 true)` is not -/
example : ((check 50 (listExp [.num 1, call2 "+" (.num 1) (.num 2)]) (.list (.con "int")) [] [] σ0).map fun r => r.1 matches .succ _) =
      some true ∧
    ((check 50 (listExp [.num 1, .bool true]) (.list (.con "int")) [] [] σ0).map fun r => r.1 matches .succ _) = some false := by decide

/-- C70 is false of the code: `()` is accepted as a number in `(let x () (+ x 1))` -/
theorem C70_nil_wrong : ∃ e, accepted e = true ∧ eval decl0 G0 10 [] e matches .wrong :=
  ⟨.letE "x" .nil (call2 "+" (.var "x") (.num 1)), by decide, by decide⟩

/-- C70 is false of the code: a call forgets what it found about a function without declared type. In
`((lambda (f) (+ (f 1) (f true))) (lambda (n) (+ n 1)))` a number is added to a boolean -/
theorem C70_call_forgets_wrong : ∃ e, accepted e = true ∧ eval decl0 G0 10 [] e matches .wrong :=
  ⟨.app (.lam "f" (call2 "+" (.app (.var "f") (.num 1)) (.app (.var "f") (.bool true))))
    (.lam "n" (call2 "+" (.var "n") (.num 1))), by decide, by decide⟩

/-- C70 is false of the code: `do` forgets what it found in its first expression:
`((lambda (x) (do (+ x 1) (if x 1 2))) true)` is accepted -/
theorem C70_do_forgets_wrong : ∃ e, accepted e = true ∧ eval decl0 G0 10 [] e matches .wrong :=
  ⟨.app (.lam "x" (.seq (call2 "+" (.var "x") (.num 1)) (.ite (.var "x") (.num 1) (.num 2)))) (.bool true), by decide, by decide⟩

/-- `(lambda (x) (if true x (lambda () x)))` -/
def cyclic : Exp := .lam "x" (.ite (.bool true) (.var "x") (.lam0 (.var "x")))

def cyclicBody : Exp := .ite (.bool true) (.var "x") (.lam0 (.var "x"))

theorem cyclic_body : check 20 cyclicBody (.var 1002) [("x", .var 1001)] [] ⟨1003, tenv0⟩ =
    some (.succ [(1003, .thunk (.var 1003)), (1002, .var 1003), (1001, .var 1002)], ⟨1004, tenv0⟩) := rfl

theorem cyclic_none (n : Nat) :
    applySubst n (.arrow (.var 1001) (.var 1002)) [(1003, .thunk (.var 1003)), (1002, .var 1003), (1001, .var 1002)] = none := by
  have h3 : ∀ n, applySubst n (.var 1003) [(1003, .thunk (.var 1003)), (1002, .var 1003), (1001, .var 1002)] = none := by
    intro n
    induction n using Nat.strongRecOn with
    | _ n ih =>
      match n with
      | 0 => rfl
      | 1 => rfl
      | n + 2 =>
        have := ih n (by omega)
        simp only [applySubst, assq, if_true, this, Option.map_none]
  have h2 : ∀ n, applySubst n (.var 1002) [(1003, .thunk (.var 1003)), (1002, .var 1003), (1001, .var 1002)] = none := by
    intro n
    cases n with
    | zero => rfl
    | succ n => simp [applySubst, assq, h3]
  cases n with
  | zero => rfl
  | succ n => simp only [applySubst, h2]; split <;> simp_all

/-- C70 is false of the code: the checker need not end. `(lambda (x) (if true x (lambda () x)))` has no type, and it goes
on for ever -/
theorem C70_never_ends_wrong : (∀ n, typecheck n σ0 cyclic = none) ∧ ∀ T, ¬ HasType decl0 [] cyclic T := by
  refine ⟨fun n => ?_, fun T h => ?_⟩
  · cases h : typecheck n σ0 cyclic with
    | none => rfl
    | some r =>
      have h := check_mono (Nat.le_add_right n 22) h
      have hb := check_mono (Nat.le_add_left 20 n) cyclic_body
      have e : check (n + 22) cyclic (.var σ0.next) [] [] (σ0.tvars 1) =
          bindS (check (n + 20) cyclicBody (.var 1002) [("x", .var 1001)] [] ⟨1003, tenv0⟩) fun s1 σ' =>
            unifyS (n + 20) (.var 1000) (.arrow (.var 1001) (.var 1002)) s1 σ' := rfl
      rw [e, hb] at h
      simp only [bindS, unifyS, unify, cyclic_none, Option.map_eq_some_iff] at h
      obtain ⟨_, h, _⟩ := h
      split at h
      · rename_i h2
        cases h2
      · cases h
  cases h with
  | @lam _ _ _ a b h =>
  cases h with
  | ite _ h1 h2 =>
  cases h2 with
  | @lam0 _ _ t h2 =>
  have key : ∀ {u}, HasType decl0 [("x", a)] (.var "x") u → u = a := by
    intro u h
    cases h with
    | loc h => simp only [look, if_true] at h; exact (Option.some.inj h).symm
    | glob h => simp [look] at h
  have h3 := key h1
  have h4 := key h2
  rw [← h4] at h3
  have := congrArg size h3
  simp [size] at this

/-- C70 is false of the code: a name that is bound nowhere is accepted -/
theorem C70_unbound_wrong : ∃ e, accepted e = true ∧ eval decl0 G0 10 [] e matches .wrong :=
  ⟨.app (.var "nosuch") (.num 1), by decide, by decide⟩

/-- C70 is false of the code: a function declared for all types can be used with one type only. `=` takes anything, but
`(if (= 1 2) (= true true) false)` is refused -/
theorem C70_generic_once_wrong : refused (.ite (call2 "=" (.num 1) (.num 2)) (call2 "=" (.bool true) (.bool true)) (.bool false)) = true ∧
    accepted (.ite (call2 "=" (.num 1) (.num 2)) (.bool true) (.bool false)) = true ∧
    accepted (.ite (.bool true) (call2 "=" (.bool true) (.bool true)) (.bool false)) = true := by
  refine ⟨by decide, by decide, by decide⟩

end Cora.Infer
