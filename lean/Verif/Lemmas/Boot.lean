import Verif.Model.Boot
import Verif.Props.Code
import Verif.Props.Ident
import Verif.Props.Reader
import Verif.Props.Peval
/-
Tests for the hypotheses of C55 and C77 that can be computed for a whole program.
-/
open Spec.Lang Spec.C Spec.Compiled Cora.Compile
namespace Cora.Boot

/-! ### the conditions on forms -/

mutual
/-- a test for `Core.tidy` -/
def tidyB (S : List Spec.Lang.Sym) : Core → Bool
  | .lam ps b => tidyB (ps ++ S.filter fun x => decide (x ∈ (Core.lam ps b).fv)) b
  | .ite a b c => tidyB S a && tidyB S b && tidyB S c
  | .seq a b => tidyB S a && tidyB S b
  | .bind x e b => decide (x ∉ S) && tidyB S e && tidyB (x :: S) b
  | .app f args => tidyB S f && tidysB S args && f.lets.all fun x => decide (x ∉ Core.letss args)
  | _ => true
def tidysB (S : List Spec.Lang.Sym) : List Core → Bool
  | [] => true
  | c :: r => tidyB S c && tidysB S r && c.lets.all fun x => decide (x ∉ Core.letss r)
end

mutual
theorem tidyB_spec : ∀ {S : List Spec.Lang.Sym} {e : Core}, tidyB S e = true → e.tidy S
  | S, .lit _, _ => trivial
  | S, .quote _, _ => trivial
  | S, .var _, _ => trivial
  | S, .lam ps b, h => by rw [Core.tidy]; rw [tidyB] at h; exact tidyB_spec h
  | S, .ite a b c, h => by
    simp only [tidyB, Bool.and_eq_true] at h
    exact ⟨tidyB_spec h.1.1, tidyB_spec h.1.2, tidyB_spec h.2⟩
  | S, .seq a b, h => by
    simp only [tidyB, Bool.and_eq_true] at h
    exact ⟨tidyB_spec h.1, tidyB_spec h.2⟩
  | S, .bind x e b, h => by
    simp only [tidyB, Bool.and_eq_true, decide_eq_true_eq] at h
    exact ⟨h.1.1, tidyB_spec h.1.2, tidyB_spec h.2⟩
  | S, .app f args, h => by
    simp only [tidyB, Bool.and_eq_true, List.all_eq_true, decide_eq_true_eq] at h
    exact ⟨tidyB_spec h.1.1, tidysB_spec h.1.2, h.2⟩
theorem tidysB_spec : ∀ {S : List Spec.Lang.Sym} {es : List Core}, tidysB S es = true → Core.tidys S es
  | S, [], _ => trivial
  | S, c :: r, h => by
    simp only [tidysB, Bool.and_eq_true, List.all_eq_true, decide_eq_true_eq] at h
    exact ⟨tidyB_spec h.1.1, tidysB_spec h.1.2, h.2⟩
end

mutual
/-- a test for `Core.apart` -/
def apartB : Core → Bool
  | .lam ps b => decide ps.Nodup && apartB b
  | .ite a b c => apartB a && apartB b && apartB c && a.lets.all fun x => decide (x ∉ b.lets ∧ x ∉ c.lets)
  | .seq a b => apartB a && apartB b && a.lets.all fun x => decide (x ∉ b.lets)
  | .bind x e b => apartB e && apartB b && decide (x ∉ e.lets) && e.lets.all fun x => decide (x ∉ b.lets)
  | .app f args => apartB f && apartsB args
  | _ => true
def apartsB : List Core → Bool
  | [] => true
  | c :: r => apartB c && apartsB r
end

mutual
theorem apartB_spec : ∀ {e : Core}, apartB e = true → e.apart
  | .lit _, _ => trivial
  | .quote _, _ => trivial
  | .var _, _ => trivial
  | .lam ps b, h => by
    simp only [apartB, Bool.and_eq_true, decide_eq_true_eq] at h
    exact ⟨h.1, apartB_spec h.2⟩
  | .ite a b c, h => by
    simp only [apartB, Bool.and_eq_true, List.all_eq_true, decide_eq_true_eq] at h
    exact ⟨apartB_spec h.1.1.1, apartB_spec h.1.1.2, apartB_spec h.1.2, h.2⟩
  | .seq a b, h => by
    simp only [apartB, Bool.and_eq_true, List.all_eq_true, decide_eq_true_eq] at h
    exact ⟨apartB_spec h.1.1, apartB_spec h.1.2, h.2⟩
  | .bind x e b, h => by
    simp only [apartB, Bool.and_eq_true, List.all_eq_true, decide_eq_true_eq] at h
    exact ⟨apartB_spec h.1.1.1, apartB_spec h.1.1.2, h.1.2, h.2⟩
  | .app f args, h => by
    simp only [apartB, Bool.and_eq_true] at h
    exact ⟨apartB_spec h.1, apartsB_spec h.2⟩
theorem apartsB_spec : ∀ {es : List Core}, apartsB es = true → Core.aparts es
  | [], _ => trivial
  | c :: r, h => by
    simp only [apartsB, Bool.and_eq_true] at h
    exact ⟨apartB_spec h.1, apartsB_spec h.2⟩
end

/-- a test for `Datum.writable` -/
def constB : Datum → Bool
  | .str s => !(s.toUTF8.data.toList.contains 0) && !(s.toUTF8.data.toList.contains 92)
  | .cons _ _ => false
  | _ => true

theorem constB_spec : ∀ {d : Datum}, constB d = true → d.writable
  | .str s, h => by simpa [constB, Datum.writable] using h
  | .cons _ _, h => by simp [constB] at h
  | .int _, _ => trivial
  | .bool _, _ => trivial
  | .nil, _ => trivial
  | .sym _, _ => trivial

mutual
/-- a test for `Core.writable` -/
def writableB : Core → Bool
  | .lit c => constB c.datum
  | .quote d => constB d
  | .var _ => true
  | .lam _ b => writableB b
  | .ite a b c => writableB a && writableB b && writableB c
  | .seq a b => writableB a && writableB b
  | .bind _ e b => writableB e && writableB b
  | .app f args => writableB f && writablesB args
def writablesB : List Core → Bool
  | [] => true
  | c :: r => writableB c && writablesB r
end

mutual
theorem writableB_spec : ∀ {e : Core}, writableB e = true → e.writable
  | .lit _, h => constB_spec h
  | .quote _, h => constB_spec h
  | .var _, _ => trivial
  | .lam ps b, h => by rw [Core.writable]; rw [writableB] at h; exact writableB_spec h
  | .ite a b c, h => by
    simp only [writableB, Bool.and_eq_true] at h
    exact ⟨writableB_spec h.1.1, writableB_spec h.1.2, writableB_spec h.2⟩
  | .seq a b, h => by
    simp only [writableB, Bool.and_eq_true] at h
    exact ⟨writableB_spec h.1, writableB_spec h.2⟩
  | .bind x e b, h => by
    simp only [writableB, Bool.and_eq_true] at h
    exact ⟨writableB_spec h.1, writableB_spec h.2⟩
  | .app f args, h => by
    simp only [writableB, Bool.and_eq_true] at h
    exact ⟨writableB_spec h.1, writablesB_spec h.2⟩
theorem writablesB_spec : ∀ {es : List Core}, writablesB es = true → Core.writables es
  | [], _ => trivial
  | c :: r, h => by
    simp only [writablesB, Bool.and_eq_true] at h
    exact ⟨writableB_spec h.1, writablesB_spec h.2⟩
end

/-- a test for `fullCall` -/
def fullCallB : Core → List Core → Bool
  | .var (.named p), args => match primArity p with | some n => args.length == n | none => true
  | _, _ => true

theorem fullCallB_spec {f : Core} {args : List Core} (h : fullCallB f args = true) : fullCall f args := by
  unfold fullCall
  split
  · rename_i p args
    intro n hn
    simpa [fullCallB, hn] using h
  · trivial

mutual
/-- a test for `Core.full` -/
def fullB : Core → Bool
  | .lam _ b => fullB b
  | .ite a b c => fullB a && fullB b && fullB c
  | .seq a b => fullB a && fullB b
  | .bind _ e b => fullB e && fullB b
  | .app f args => fullB f && fullsB args && fullCallB f args
  | _ => true
def fullsB : List Core → Bool
  | [] => true
  | c :: r => fullB c && fullsB r
end

mutual
theorem fullB_spec : ∀ {e : Core}, fullB e = true → e.full
  | .lit _, _ => trivial
  | .quote _, _ => trivial
  | .var _, _ => trivial
  | .lam ps b, h => by rw [Core.full]; rw [fullB] at h; exact fullB_spec h
  | .ite a b c, h => by
    simp only [fullB, Bool.and_eq_true] at h
    exact ⟨fullB_spec h.1.1, fullB_spec h.1.2, fullB_spec h.2⟩
  | .seq a b, h => by
    simp only [fullB, Bool.and_eq_true] at h
    exact ⟨fullB_spec h.1, fullB_spec h.2⟩
  | .bind x e b, h => by
    simp only [fullB, Bool.and_eq_true] at h
    exact ⟨fullB_spec h.1, fullB_spec h.2⟩
  | .app f args, h => by
    simp only [fullB, Bool.and_eq_true] at h
    exact ⟨fullB_spec h.1.1, fullsB_spec h.1.2, fullCallB_spec h.2⟩
theorem fullsB_spec : ∀ {es : List Core}, fullsB es = true → Core.fulls es
  | [], _ => trivial
  | c :: r, h => by
    simp only [fullsB, Bool.and_eq_true] at h
    exact ⟨fullB_spec h.1, fullsB_spec h.2⟩
end

/-- a test for `Below` -/
def belowB (k : Nat) (xs : List Spec.Lang.Sym) : Bool := xs.all fun | .gen n => decide (n < k) | .named _ => true

theorem belowB_spec {k : Nat} {xs : List Spec.Lang.Sym} (h : belowB k xs = true) : Below k xs := by
  intro n hn
  simp only [belowB, List.all_eq_true] at h
  simpa using h _ hn

/-! ### the names of variables in C -/

/-- a test for printable characters -/
def printing (c : UInt8) : Bool := decide (33 ≤ c.toNat ∧ c.toNat ≤ 126)

/-- a test for one variable -/
def varB : Spec.Lang.Sym → Bool
  | .named s =>
    let b := bytesOf s
    b.all printing && decide (b.length < 255) &&
      (match b with | c :: _ => !(decide (48 ≤ c.toNat ∧ c.toNat ≤ 57)) && c != 35 | [] => false) && usable (b.flatMap symChar)
  | .gen n => decide (n < 10 ^ 100)

theorem isDigit_iff (c : UInt8) : isDigit c = true ↔ 48 ≤ c.toNat ∧ c.toNat ≤ 57 := by
  simp [isDigit, UInt8.le_iff_toNat_le]

theorem names_gen_printing (n : Nat) : ∀ c ∈ names (.gen n), Printing c := by
  intro c hc
  simp only [names, List.cons_append, List.mem_cons, List.mem_append, List.not_mem_nil, or_false] at hc
  rcases hc with rfl | hc | rfl
  · exact ⟨by decide, by decide⟩
  · have := (isDigit_iff c).mp (decDigits_digit n c hc)
    exact ⟨by omega, by omega⟩
  · exact ⟨by decide, by decide⟩

theorem names_gen_length {n : Nat} (h : n < 10 ^ 100) : (names (.gen n)).length < 255 := by
  have := Reader.decDigits_length n 100 (by omega) h
  simp only [names, List.cons_append, List.length_cons, List.length_append, List.length_nil]
  omega

theorem names_gen_digit (n : Nat) : ¬ StartsDigit (names (.gen n)) := by
  rintro ⟨c, r, h, h1, h2⟩
  simp only [names, List.cons_append, List.cons.injEq] at h
  rw [← h.1] at h1
  revert h1; decide

theorem symChar_gen (n : Nat) : (names (.gen n)).flatMap symChar = [95, 51, 53] ++ Reader.decDigits n ++ [95, 51, 55] := by
  have h : (Reader.decDigits n).flatMap symChar = Reader.decDigits n := by
    have h := decDigits_digit n
    generalize Reader.decDigits n = l at h
    induction l with
    | nil => rfl
    | cons c l ih =>
      rw [List.flatMap_cons, ih fun c hc => h c (by simp [hc])]
      have := (isDigit_iff c).mp (h c (by simp))
      simp [symChar, this]
  have h1 : symChar 35 = [95, 51, 53] := by decide +kernel
  have h2 : symChar 37 = [95, 51, 55] := by decide +kernel
  simp only [names, List.cons_append, List.flatMap_cons, List.flatMap_append, List.flatMap_nil, h, h1, h2]
  simp

theorem not_prefixed {p r : Bytes} {l : List Bytes} (h : l.all (fun x => !(p.isPrefixOf x)) = true) : p ++ r ∉ l := by
  intro hm
  rw [List.all_eq_true] at h
  have := h _ hm
  simp only [Bool.not_eq_true', ← Bool.not_eq_true, List.isPrefixOf_iff_prefix] at this
  exact this ⟨_, rfl⟩

theorem usable_gen (n : Nat) : Usable ([95, 51, 53] ++ Reader.decDigits n ++ [95, 51, 55]) := by
  rw [List.append_assoc]
  refine ⟨⟨⟨95, _, rfl, by decide⟩, ?_⟩, ?_, not_prefixed (by decide +kernel), not_prefixed (by decide +kernel), ?_⟩
  · intro c hc
    simp only [List.mem_append, List.mem_cons, List.not_mem_nil, or_false] at hc
    rcases hc with (rfl | rfl | rfl) | hc | (rfl | rfl | rfl)
    · decide
    · decide
    · decide
    · have := decDigits_digit n c hc
      simp [isIdChar, this]
    · decide
    · decide
    · decide
  · unfold isName
    have h1 : ([95, 51, 53] ++ (Reader.decDigits n ++ [95, 51, 55])) ∉ keywords := not_prefixed (by decide +kernel)
    have h2 : ([95, 51, 53] ++ (Reader.decDigits n ++ [95, 51, 55])) ∉ typeNames := not_prefixed (by decide +kernel)
    simp only [Bool.and_eq_true, Bool.not_eq_true']
    simpa using ⟨h1, h2⟩
  · intro m h
    have hc : ∃ r, Compile.group m = 99 :: r := ⟨_, rfl⟩
    obtain ⟨r, hr⟩ := hc
    rw [hr] at h
    simp at h

/-- what the test of a variable says -/
theorem varB_spec {x : Spec.Lang.Sym} (h : varB x = true) :
    (∀ c ∈ names x, Printing c) ∧ (names x).length < 255 ∧ ¬ StartsDigit (names x) ∧ Usable ((names x).flatMap symChar) ∧
      ∀ s, x = .named s → ∀ n, names x ≠ names (.gen n) := by
  cases x with
  | gen n =>
    simp only [varB, decide_eq_true_eq] at h
    exact ⟨names_gen_printing n, names_gen_length h, names_gen_digit n, by rw [symChar_gen]; exact usable_gen n, fun s hs => by cases hs⟩
  | named s =>
    simp only [varB, Bool.and_eq_true, decide_eq_true_eq, List.all_eq_true] at h
    obtain ⟨⟨⟨h1, h2⟩, h3⟩, h4⟩ := h
    refine ⟨fun c hc => by simpa [printing, Printing] using h1 c hc, h2, ?_, usable_spec h4, ?_⟩
    · rintro ⟨c, r, hb, hd⟩
      rw [names] at hb
      simp only [hb] at h3
      simp [hd] at h3
    · intro s' hs n hn
      rw [names] at hn
      rw [hn] at h3
      simp [names] at h3

theorem bytesOf_inj {s t : String} (h : bytesOf s = bytesOf t) : s = t := by
  unfold bytesOf at h
  have h1 : s.toUTF8.data = t.toUTF8.data := by
    have := congrArg List.toArray h
    simpa using this
  have h2 : s.toUTF8 = t.toUTF8 := by
    cases hs : s.toUTF8; cases ht : t.toUTF8; simp_all
  exact String.toByteArray_inj.mp h2

theorem names_inj {x y : Spec.Lang.Sym} (hx : varB x = true) (hy : varB y = true) (h : names x = names y) : x = y := by
  cases x with
  | named s =>
    cases y with
    | named t => rw [bytesOf_inj h]
    | gen n => exact absurd h ((varB_spec hx).2.2.2.2 s rfl n)
  | gen m =>
    cases y with
    | named t => exact absurd h.symm ((varB_spec hy).2.2.2.2 t rfl m)
    | gen n =>
      simp only [names, List.cons_append, List.cons.injEq, true_and] at h
      rw [decDigits_inj (List.append_cancel_right h)]

theorem varsB_spec {g : Gen} (hg : g.nm = names) {V : List Spec.Lang.Sym} (h : ∀ x ∈ V, varB x = true) : VarsOk g V := by
  have he : ∀ x ∈ V, genSym g x = some ((names x).flatMap symChar) := by
    intro x hx
    obtain ⟨h1, h2, h3, -⟩ := varB_spec (h x hx)
    rw [genSym, hg]
    exact (generateSym_eq h1 h2).2 h3
  refine ⟨fun x hx => ⟨_, he x hx, (varB_spec (h x hx)).2.2.2.1⟩, fun x hx y hy hxy => ?_⟩
  rw [he x hx, he y hy, Option.some.injEq] at hxy
  exact names_inj (h x hx) (h y hy) (flatMap_symChar_inj (varB_spec (h x hx)).1 (varB_spec (h y hy)).1 hxy)

/-- a test for the variables of a compiled form -/
def ownB (e : Core) (k : Nat) : Bool := e.binders.all varB && decide (k < 10 ^ 100)

theorem ownB_spec {g : Gen} (hg : g.nm = names) {e : Core} {k : Nat} (h : ownB e k = true) : VarsOk g (ownVars e k) := by
  simp only [ownB, Bool.and_eq_true, List.all_eq_true, decide_eq_true_eq] at h
  refine varsB_spec hg fun x hx => ?_
  rcases List.mem_append.mp hx with hx | hx
  · exact h.1 x hx
  · obtain ⟨n, hn, rfl⟩ := List.mem_map.mp hx
    have := List.mem_range.mp hn
    simp only [varB, decide_eq_true_eq]
    omega

/-! ### all together -/

/-- what the generator is given for a form -/
def genFor (e : Core) : Gen := ⟨names, fun _ => 0, globalsOf [] e []⟩

/-- a test for `ForC` -/
def forCB (k k' : Nat) (e : Core) : Bool :=
  belowB k e.syms && e.binders.all (fun x => !x.isPrim) && fullB e && tidyB [] e && apartB e && writableB e &&
    (globalsOf [] e []).all entryOk && ownB e k'

theorem forCB_spec {k k' : Nat} {e : Core} (h : forCB k k' e = true) : ForC (genFor e) k k' e := by
  simp only [forCB, Bool.and_eq_true] at h
  obtain ⟨⟨⟨⟨⟨⟨⟨h1, h2⟩, h3⟩, h4⟩, h5⟩, h6⟩, h7⟩, h8⟩ := h
  refine ⟨belowB_spec h1, ?_, fullB_spec h3, tidyB_spec h4, apartB_spec h5, writableB_spec h6, rfl, ?_, ownB_spec rfl h8⟩
  · intro x hx
    simpa using List.all_eq_true.mp h2 x hx
  · intro d hd
    obtain ⟨s, h1, h2, h3⟩ := entryOk_spec (e := e) h7 d hd
    exact ⟨s, h1, rfl, h3⟩

/-- a test for `FitsFrame` -/
def roomB (n : Nat) (lams : List Lam) : Bool :=
  match lams.getLast? with
  | some top => top.conts.all fun c => decide (c.live.length < n)
  | none => true

theorem roomB_spec {n : Nat} {lams : List Lam} (h : roomB n lams = true) : FitsFrame n lams := by
  intro top ht
  simpa [roomB, ht] using h

end Cora.Boot
