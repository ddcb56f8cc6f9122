import Verif.Spec.Datum
import Verif.Lemmas.Str
/-
Property theorems C04: `=` is structural equality.
-/
namespace Cora
open Spec

theorem cons_not_bytes {o : Obj} (h : iscons o = true) : isBytes o = false := by
  simp only [iscons, isBytes, hasTag, beq_iff_eq] at *
  rw [h]; decide

theorem bytes_not_cons {o : Obj} (h : isBytes o = true) : iscons o = false := by
  simp only [iscons, isBytes, hasTag, beq_iff_eq] at *
  rw [h]; decide

theorem denotes_fun {m : Mem} {o : Obj} {d e : Datum} (h1 : Denotes m o d) (h2 : Denotes m o e) : d = e := by
  induction h1 generalizing e with
  | atom a b => cases h2 <;> simp_all
  | str h hm hl =>
    cases h2 with
    | atom a b => simp_all
    | str h' hm' _ => rw [hm] at hm'; simp_all
    | pair h' _ _ _ => rw [cons_not_bytes h'] at h; simp at h
  | pair h hm _ _ iha ihd =>
    cases h2 with
    | atom a b => simp_all
    | str h' _ _ => rw [cons_not_bytes h] at h'; simp at h'
    | pair h' hm' ha' hd' =>
      rw [hm] at hm'
      obtain ⟨rfl, rfl⟩ : _ ∧ _ := by simpa using hm'
      rw [iha ha', ihd hd']

theorem strCmp_zero_iff {a b : Bytes} (h1 : a.length < 2 ^ 31) (h2 : b.length < 2 ^ 31) :
    (strCmp a b == 0) = decide (a = b) := by
  have q := (strCmp_spec a b h1 h2).2.1
  by_cases h : a = b
  · rw [decide_eq_true h, q.mpr h]; rfl
  · rw [decide_eq_false h]
    exact beq_eq_false_iff_ne.mpr (fun hh => h (q.mp hh))

theorem eqObj_core {m : Mem} {x y : Obj} {d e : Datum} (hx : Denotes m x d) (hy : Denotes m y e) :
    ∀ fuel, min d.depth e.depth ≤ fuel → eqObj m fuel x y = some (decide (d = e)) := by
  induction hx generalizing y e with
  | @atom o h1 h2 =>
    intro fuel hf
    match fuel with
    | 0 => cases e <;> simp [Datum.depth] at hf
    | fuel + 1 =>
      rw [eqObj]
      by_cases he : o = y
      · subst he
        simp [denotes_fun (.atom h1 h2) hy]
      · simp only [he, if_false, h1, h2, Bool.false_and]
        cases hy <;> simp [he]
  | @str o b h hm hl =>
    intro fuel hf
    match fuel with
    | 0 => cases e <;> simp [Datum.depth] at hf
    | fuel + 1 =>
      rw [eqObj]
      by_cases he : o = y
      · subst he
        simp [denotes_fun (.str h hm hl) hy]
      · have hc : iscons o = false := bytes_not_cons h
        simp only [he, if_false, hc, h, Bool.false_and, Bool.true_and]
        cases hy with
        | atom a b' => simp [b']
        | str h' hm' hl' => simp [h', bytesOf, hm, hm', strCmp_zero_iff hl hl']
        | pair h' _ _ _ => simp [cons_not_bytes h']
  | @pair o a dd p q h hm ha hd iha ihd =>
    intro fuel hf
    match fuel with
    | 0 => cases e <;> simp [Datum.depth] at hf
    | fuel + 1 =>
      rw [eqObj]
      by_cases he : o = y
      · subst he
        simp [denotes_fun (.pair h hm ha hd) hy]
      · simp only [he, if_false, h, cons_not_bytes h, Bool.false_and, Bool.true_and]
        cases hy with
        | atom a b' => simp [a]
        | str h' hm' hl' =>
          have hc : iscons y = false := bytes_not_cons h'
          simp [hc]
        | @pair _ a' d' p' q' h' hm' ha' hd' =>
          simp only [Datum.depth] at hf
          have e1 := iha ha' fuel (by omega)
          have e2 := ihd hd' fuel (by omega)
          simp only [h', if_true, carOf, cdrOf, hm, hm', e1, e2]
          by_cases hp : p = p' <;> simp [hp, e1, e2]

/-! ## C04 -/

/-- C04 (a). On finite values `=` terminates (with C recursion no deeper than the shallower of the two
values) and answers `true` exactly when they stand for the same datum. -/
theorem C04_eq_structural {m : Mem} {x y : Obj} {d e : Datum} (hx : Denotes m x d) (hy : Denotes m y e)
    (fuel : Nat) (hf : min d.depth e.depth ≤ fuel) : eqObj m fuel x y = some (decide (d = e)) :=
  eqObj_core hx hy fuel hf

/-- C04 (b). `=` is an equivalence relation on finite values, whatever mixture of shared and separate
objects represents them. -/
theorem C04_equivalence {m : Mem} {x y z : Obj} {d e f : Datum} (hx : Denotes m x d) (hy : Denotes m y e)
    (hz : Denotes m z f) (n : Nat) (hd : d.depth ≤ n) (he : e.depth ≤ n) (_hf : f.depth ≤ n) :
    eqObj m n x x = some true ∧ (eqObj m n x y = eqObj m n y x) ∧
    (eqObj m n x y = some true → eqObj m n y z = some true → eqObj m n x z = some true) := by
  rw [eqObj_core hx hx n (by omega), eqObj_core hx hy n (by omega), eqObj_core hy hx n (by omega),
    eqObj_core hy hz n (by omega), eqObj_core hx hz n (by omega)]
  refine ⟨by simp, by simp [eq_comm], ?_⟩
  simp only [Option.some.injEq, decide_eq_true_eq]
  exact fun a b => a.trans b

/-- C04 (c). Congruence: two pairs are `=` exactly when their heads and their tails are. -/
theorem C04_cons_congruence {m : Mem} {x y a b c d : Obj} {da db dc dd : Datum}
    (hx : iscons x = true) (hy : iscons y = true)
    (mx : m (ptrOf x) = some (.cons a b)) (my : m (ptrOf y) = some (.cons c d))
    (ha : Denotes m a da) (hb : Denotes m b db) (hc : Denotes m c dc) (hd : Denotes m d dd)
    (n : Nat) (hn : max (max da.depth db.depth) (max dc.depth dd.depth) < n) :
    eqObj m n x y = some true ↔ eqObj m n a c = some true ∧ eqObj m n b d = some true := by
  rw [eqObj_core (.pair hx mx ha hb) (.pair hy my hc hd) n (by simp only [Datum.depth]; omega),
    eqObj_core ha hc n (by omega), eqObj_core hb hd n (by omega)]
  simp

/-- C04 (d). Anything that is neither a pair nor a string (numbers, symbols, immediates, vectors,
procedures) is `=` only to itself. -/
theorem C04_atoms {m : Mem} {x y : Obj} (h1 : iscons x = false) (h2 : isBytes x = false) (n : Nat) :
    eqObj m (n + 1) x y = some true ↔ x = y := by
  rw [eqObj]
  by_cases h : x = y <;> simp [h, h1, h2]

/-- a concrete memory: two separately allocated copies of `("hi" . ("hi" . 7-ish atom))` -/
def C04_mem : Mem := fun p =>
  if p = 16#64 then some (.bytes [104, 105]) else
  if p = 32#64 then some (.bytes [104, 105]) else
  if p = 48#64 then some (.cons 0x7ffc000000000010#64 0x7ffd000000000040#64) else
  if p = 64#64 then some (.cons 0x7ffc000000000020#64 0x401c000000000000#64) else
  if p = 80#64 then some (.cons 0x7ffc000000000020#64 0x7ffd000000000060#64) else
  if p = 96#64 then some (.cons 0x7ffc000000000010#64 0x401c000000000000#64) else none

/-- non-vacuity: both values denote the same depth-3 datum and are different objects -/
example :
    let d : Datum := .pair (.str [104, 105]) (.pair (.str [104, 105]) (.atom 0x401c000000000000#64))
    Denotes C04_mem 0x7ffd000000000030#64 d ∧ Denotes C04_mem 0x7ffd000000000050#64 d ∧
    eqObj C04_mem 3 0x7ffd000000000030#64 0x7ffd000000000050#64 = some true := by
  have s1 : Denotes C04_mem 0x7ffc000000000010#64 (.str [104, 105]) := .str (by decide) (by decide) (by decide)
  have s2 : Denotes C04_mem 0x7ffc000000000020#64 (.str [104, 105]) := .str (by decide) (by decide) (by decide)
  have n7 : Denotes C04_mem 0x401c000000000000#64 (.atom 0x401c000000000000#64) := .atom (by decide) (by decide)
  have p1 := Denotes.pair (m := C04_mem) (o := 0x7ffd000000000030#64) (by decide) (by decide) s1
    (.pair (o := 0x7ffd000000000040#64) (by decide) (by decide) s2 n7)
  have p2 := Denotes.pair (m := C04_mem) (o := 0x7ffd000000000050#64) (by decide) (by decide) s2
    (.pair (o := 0x7ffd000000000060#64) (by decide) (by decide) s1 n7)
  refine ⟨p1, p2, ?_⟩
  rw [C04_eq_structural p1 p2 3 (by decide)]
  simp

end Cora
