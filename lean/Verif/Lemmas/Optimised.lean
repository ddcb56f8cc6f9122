import Verif.Spec.Optimised
import Verif.Spec.Late
import Verif.Spec.CompileText
import Verif.Spec.Segments
import Verif.Spec.Heap
import Verif.Lemmas.Lang
/-
Values that look like values that look alike, and sessions form by form.
-/
open Spec.Lang Cora.Compile
namespace Cora.Boot
variable {W : Type}

/-! ### evaluation without the condition on global variables -/

theorem xeval_eval {over : Bool} {E : Ext W} {env w e v o w1} (h : XEval over E env w e v o w1) : Eval E env w e v w1 := by
  refine XEval.rec (motive_1 := fun env w e v _ w1 _ => Eval E env w e v w1)
    (motive_2 := fun env w es vs _ w1 _ => EvalArgs E env w es vs w1)
    (motive_3 := fun w f args v w1 _ => Apply E w f args v w1)
    ?_ ?_ ?_ ?_ ?_ ?_ ?_ ?_ ?_ ?_ ?_ ?_ ?_ ?_ ?_ ?_ ?_ ?_ ?_ ?_ ?_ h
  · intros; exact .lit ..
  · intros; exact .quote ..
  · intro _ _ _ _ h; exact .local _ _ _ _ h
  · intro _ _ _ _ h h'; exact .global _ _ _ _ h h'
  · intros; exact .lam ..
  · intro _ _ _ _ _ _ _ _ _ _ _ _ h h'; exact .then _ _ _ _ _ _ _ _ h h'
  · intro _ _ _ _ _ _ _ _ _ _ _ _ hu _ h h'; exact .else _ _ _ _ _ _ _ _ _ h hu h'
  · intro _ _ _ _ _ _ _ _ _ _ _ _ h h'; exact .seq _ _ _ _ _ _ _ _ h h'
  · intro _ _ _ _ _ _ _ _ _ _ _ _ _ h h'; exact .bind _ _ _ _ _ _ _ _ _ h h'
  · intro _ _ _ _ _ _ _ _ _ _ hp _ _ _ h h'; exact .prim _ _ _ _ _ _ _ _ _ hp h h'
  · intro _ _ _ _ _ _ _ _ _ _ _ _ hp _ _ _ _ h h' h''; exact .app _ _ _ _ _ _ _ _ _ _ hp h h' h''
  · intros; exact .nil ..
  · intro _ _ _ _ _ _ _ _ _ _ _ _ h h'; exact .cons _ _ _ _ _ _ _ _ h h'
  · intro _ _ _ _ _ _ _ _ hl _ h; exact .clo _ _ _ _ _ _ _ hl h
  · intro _ _ _ _ _ h h'; exact .prim _ _ _ _ _ h h'
  · intro _ _ _ _ _ _ h h'; exact .native _ _ _ _ _ _ h h'
  · intro _ _ _ h h'; exact .none _ _ _ h h'
  · intro _ _ _ _ h h' h''; exact .less _ _ _ _ h h' h''
  · intro _ _ _ _ _ _ _ _ _ h h' _ _ h2 h3; exact .more _ _ _ _ _ _ _ _ h h' h2 h3
  · intro _ _ _ _ _ _ h _ h'; exact .pap _ _ _ _ _ _ h h'
  · intros; exact .papNone ..

theorem session_eval {over : Bool} {E : Ext W} {w : World W} {l : List (Core × Val × World W)} (h : Spec.Compiled.XSession over E w l) :
    EvalSession E w l := by
  induction h with
  | nil => exact .nil _
  | cons h1 _ ih => exact .cons (xeval_eval h1) ih

/-! ### sessions and runs -/

theorem runs_det {E : Ext W} {w : World W} {es : List Core} {vs vs' : List Val} {w1 w2 : World W} (h : Runs E w es vs w1)
    (h' : Runs E w es vs' w2) : vs = vs' ∧ w1 = w2 := by
  induction h generalizing vs' with
  | nil => cases h'; exact ⟨rfl, rfl⟩
  | cons _ _ _ _ _ _ _ h1 _ ih =>
    cases h' with
    | cons _ _ _ _ _ _ _ h1' h2' =>
      obtain ⟨rfl, rfl⟩ := eval_det h1 h1'
      obtain ⟨rfl, rfl⟩ := ih h2'
      exact ⟨rfl, rfl⟩

theorem session_runs {E : Ext W} {w : World W} {l : List (Core × Val × World W)} (h : EvalSession E w l) :
    ∀ pre i post, l = pre ++ i :: post → Runs E w ((pre ++ [i]).map (·.1)) ((pre ++ [i]).map (·.2.1)) i.2.2 := by
  induction h with
  | nil => intro pre i post h; simp at h
  | cons h1 _ ih =>
    intro pre i post h
    cases pre with
    | nil =>
      simp only [List.nil_append, List.cons.injEq] at h
      obtain ⟨rfl, rfl⟩ := h
      exact .cons _ _ _ _ _ _ _ h1 (.nil _)
    | cons p pre =>
      simp only [List.cons_append, List.cons.injEq] at h
      obtain ⟨rfl, h⟩ := h
      exact .cons _ _ _ _ _ _ _ h1 (ih pre i post h)

theorem looksAll_last {us vs : List Val} {u v : Val} (h : LooksAll (us ++ [u]) (vs ++ [v])) (hl : us.length = vs.length) : Looks u v := by
  induction us generalizing vs with
  | nil =>
    cases vs with
    | nil => cases h with | cons h1 _ => exact h1
    | cons => simp at hl
  | cons a us ih =>
    cases vs with
    | nil => simp at hl
    | cons b vs =>
      cases h with
      | cons _ h2 => exact ih h2 (by simpa using hl)

/-! ### values that look alike -/

theorem looks_looks {A : Type} : ∀ {v v' : Val} {u : CVal A}, Looks v v' → Spec.Compiled.Looks v' u → Spec.Compiled.Looks v u
  | _, _, _, .int n, h => h
  | _, _, _, .bool n, h => h
  | _, _, _, .nil, h => h
  | _, _, _, .str n, h => h
  | _, _, _, .sym n, h => h
  | _, _, _, .cons h1 h2, h => by
    cases h with
    | cons h3 h4 => exact .cons (looks_looks h1 h3) (looks_looks h2 h4)
    | fn h => simp [Spec.Compiled.isFunction] at h
  | _, _, _, .clo _, h => by cases h with | fn _ h => exact .fn rfl h
  | _, _, _, .prim _, h => by cases h with | fn _ h => exact .fn rfl h
  | _, _, _, .pap _ _, h => by cases h with | fn _ h => exact .fn rfl h
  | _, _, _, .native _ _, h => by cases h with | fn _ h => exact .fn rfl h

theorem worlds_looks {A : Type} {w w' : World W} {c : CWorld A W} (h : SameWorld Looks w w') (h' : Spec.Compiled.Worlds Spec.Compiled.Looks w' c) :
    Spec.Compiled.Worlds Spec.Compiled.Looks w c := by
  refine ⟨h.rest.trans h'.1, fun x => ?_⟩
  cases hx : w.globals x with
  | none =>
    rcases h'.2 x with ⟨_, h2⟩ | ⟨v, u, h1, _, _⟩
    · exact .inl ⟨rfl, h2⟩
    · rw [h.unset x hx] at h1; cases h1
  | some v =>
    obtain ⟨v', h1, h2⟩ := h.globals x v hx
    rcases h'.2 x with ⟨h3, _⟩ | ⟨v1, u, h3, h4, h5⟩
    · rw [h1] at h3; cases h3
    · rw [h1] at h3; cases h3
      exact .inr ⟨v, u, rfl, h4, looks_looks h2 h5⟩

/-- the same files with values and worlds that look alike -/
inductive AlikeAll {X : Type} : List (X × Val × World W) → List (X × Val × World W) → Prop where
  | nil : AlikeAll [] []
  | cons {x v v' w w' l l'} : Looks v v' → SameWorld Looks w w' → AlikeAll l l' → AlikeAll ((x, v, w) :: l) ((x, v', w') :: l')

theorem loadsText_alike {O : Outside W} {n : Nat} {l l' : List (Bytes × Val × World W)} (h : AlikeAll l l') :
    ∀ {files w}, Spec.Compiled.LoadsText O n files w l' → Spec.Compiled.LoadsText O n files w l := by
  induction h with
  | nil => exact fun h => h
  | cons h1 h2 _ ih =>
    intro files w hl s hw hin
    obtain ⟨file, s', a1, a2, a3, a4, a5, a6, a7, a8⟩ := hl s hw hin
    exact ⟨file, s', a1, a2, looks_looks h1 a3, worlds_looks h2 a4, a5, a6, a7, ih a8⟩

theorem loadsSeg_alike {ends : Prop} {O : Outside W} {malloc : List Nat → Nat} {n : Nat} {l l' : List (Bytes × Val × World W)}
    (h : AlikeAll l l') : ∀ {files w}, Spec.Compiled.LoadsSeg ends O malloc n files w l' → Spec.Compiled.LoadsSeg ends O malloc n files w l := by
  induction h with
  | nil => exact fun h => h
  | cons h1 h2 _ ih =>
    intro files w hl t hw hin
    obtain ⟨file, a1, a2, a3⟩ := hl t hw hin
    refine ⟨file, a1, a2, fun fuel t' ht => ?_⟩
    obtain ⟨b1, b2, b3, b4, b5, b6, b7, b8, b9, b10⟩ := a3 fuel t' ht
    exact ⟨looks_looks h1 b1, worlds_looks h2 b2, b3, b4, b5, b6, b7, b8, b9, ih b10⟩

theorem loadsHeap_alike [GC.Layout] {O : Outside W} {HO : HOutside W} {malloc : List Nat → Nat} {n : Nat}
    {l l' : List (List Lam × Val × World W)} (h : AlikeAll l l') :
    ∀ {units w}, Spec.Compiled.LoadsHeap O HO malloc n units w l' → Spec.Compiled.LoadsHeap O HO malloc n units w l := by
  induction h with
  | nil => exact fun h => h
  | cons h1 h2 _ ih =>
    intro units w hl h held mine c1 c2 c3 c4
    obtain ⟨a1, a2⟩ := hl h held mine c1 c2 c3 c4
    refine ⟨a1, fun h' b1 b2 => ?_⟩
    obtain ⟨held', u, w', d1, d2, d3, d4, d5, d6, d7, d8, d9, d10, d11, d12, d13, d14, d15, d16⟩ := a2 h' b1 b2
    exact ⟨held', u, w', d1, d2, looks_looks h1 d3, d4, worlds_looks h2 d5, d6, d7, d8, d9, d10, d11, d12, d13, d14, d15, ih d16⟩

end Cora.Boot
