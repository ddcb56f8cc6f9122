import Verif.Spec.Repl
import Verif.Lemmas.PevalSteps
import Verif.Props.Interp
import Verif.Props.Names
/-
Sessions whose forms see names through imported packages.
-/
open Spec Spec.Lang
namespace Cora.Repl
variable {W : Type}

/-! ### what a form sees, for worlds that are alike -/

theorem likeness_datum {V : Val → Val → Prop} (hV : Likeness V) : ∀ {u v : Val}, V u v → u.datum = v.datum
  | .int n, v, h => by rw [(hV.int n v).mp h]
  | .bool n, v, h => by rw [(hV.bool n v).mp h]
  | .nil, v, h => by rw [(hV.nil v).mp h]
  | .str n, v, h => by rw [(hV.str n v).mp h]
  | .sym n, v, h => by rw [(hV.sym n v).mp h]
  | .cons a d, v, h => by
    obtain ⟨a', d', rfl, h1, h2⟩ := (hV.cons a d v).mp h
    simp only [Val.datum, likeness_datum hV h1, likeness_datum hV h2]
  | .clo _ _ _, v, h => by cases hV.looks _ _ h; rfl
  | .prim _, v, h => by cases hV.looks _ _ h; rfl
  | .pap _ _, v, h => by cases hV.looks _ _ h; rfl
  | .native _ _, v, h => by cases hV.looks _ _ h; rfl

theorem data_alike {V : Val → Val → Prop} (hV : Likeness V) {w w' : World W} (h : SameWorld V w w') (x : Sym) : w.data x = w'.data x := by
  unfold World.data
  cases hx : w.globals x with
  | none => rw [h.unset x hx]
  | some v =>
    obtain ⟨v', h1, h2⟩ := h.globals x v hx
    rw [h1]
    simp only [Option.bind_some, likeness_datum hV h2]

theorem imported_alike {V : Val → Val → Prop} (hV : Likeness V) {w w' : World W} (h : SameWorld V w w') : w.imported = w'.imported := by
  unfold World.imported
  rw [data_alike hV h]

theorem exported_alike {V : Val → Val → Prop} (hV : Likeness V) {w w' : World W} (h : SameWorld V w w') : w.exported = w'.exported := by
  funext p
  unfold World.exported
  rw [data_alike hV h]

theorem means_alike {V : Val → Val → Prop} (hV : Likeness V) {w w' : World W} (h : SameWorld V w w') : w.means = w'.means := by
  funext x
  unfold World.means
  rw [imported_alike hV h, exported_alike hV h]

theorem opened_alike {V : Val → Val → Prop} (hV : Likeness V) {w w' : World W} (h : SameWorld V w w') : SameWorld V w.opened w'.opened := by
  refine ⟨h.rest, fun x hx => ?_, fun x v hx => ?_⟩
  · simp only [World.opened] at hx ⊢
    rw [← means_alike hV h]
    exact h.unset _ hx
  · simp only [World.opened] at hx ⊢
    rw [← means_alike hV h]
    exact h.globals _ v hx

theorem looks_likeness : Likeness Looks where
  int n u := ⟨fun h => by cases h; rfl, fun h => by subst h; exact .int n⟩
  bool n u := ⟨fun h => by cases h; rfl, fun h => by subst h; exact .bool n⟩
  nil u := ⟨fun h => by cases h; rfl, fun h => by subst h; exact .nil⟩
  str n u := ⟨fun h => by cases h; rfl, fun h => by subst h; exact .str n⟩
  sym n u := ⟨fun h => by cases h; rfl, fun h => by subst h; exact .sym n⟩
  cons a d u := ⟨fun h => by cases h with | cons h1 h2 => exact ⟨_, _, rfl, h1, h2⟩, fun ⟨_, _, h, h1, h2⟩ => by subst h; exact .cons h1 h2⟩
  prim p u := ⟨fun h => by cases h; rfl, fun h => by subst h; exact .prim p⟩
  native i n u := ⟨fun h => by cases h; rfl, fun h => by subst h; exact .native i n⟩
  looks _ _ h := h

/-! ### optimised sessions -/

/-- form by form, related values and worlds -/
inductive Pairs (V : Val → Val → Prop) : List (Core × Val × World W) → List (Core × Val × World W) → Prop where
  | nil : Pairs V [] []
  | cons {e e' v v' w w' l l'} : V v v' → SameWorld V w w' → Pairs V l l' → Pairs V ((e, v, w) :: l) ((e', v', w') :: l')

theorem pairs_trans {l l' l'' : List (Core × Val × World W)} (h : Pairs Looks l l') : Pairs Looks l' l'' → Pairs Looks l l'' := by
  intro h'
  induction h generalizing l'' with
  | nil => exact h'
  | cons h1 h2 _ ih =>
    cases h' with
    | cons h3 h4 h5 => exact .cons (Peval.looks_trans h1 h3) (Peval.looks_same_trans h2 h4) (ih h5)

theorem pairs_looks {E : Ext W} {l l' : List (Core × Val × World W)} (h : Pairs (Peval.VRel E) l l') : Pairs Looks l l' := by
  induction h with
  | nil => exact .nil
  | cons h1 h2 _ ih => exact .cons (Peval.vrel_looks h1) (Peval.same_looks h2) ih

theorem pairs_refl {E : Ext W} : ∀ l : List (Core × Val × World W), Pairs (Peval.VRel E) l l
  | [] => .nil
  | (_, _, _) :: l => .cons (Peval.vrel_refl _) Peval.same_refl (pairs_refl l)

theorem says_layer {E : Ext W} (hE : E.BlackBox) (hA : E.Adds) {w : World W} {l : List (Core × Val × World W)} (h : Says E w l) :
    ∀ {es' : List Core} {w' : World W}, Peval.Ts [] [] (l.map (·.1)) es' → SameWorld (Peval.VRel E) w w' →
    ∃ l', Says E w' l' ∧ l'.map (·.1) = es' ∧ Pairs (Peval.VRel E) l l' := by
  induction h with
  | nil w => intro es' w' hT hw; cases hT; exact ⟨[], .nil _, rfl, .nil⟩
  | @cons w e v w1 r h1 h2 ih =>
    intro es' w' hT hw
    cases hT with
    | cons hT1 hT2 =>
      obtain ⟨v', w1', h3, h4, h5⟩ := (Peval.sim hE hA).1 _ _ _ _ _ h1 [] [] _ [] (fun _ => .nil) w'.opened hT1
        ⟨fun x _ => by simp [find], fun x _ _ => ⟨rfl, rfl⟩, (fun x _ v h => by cases h), (fun x _ v h => by cases h)⟩
        (opened_alike Peval.vrel_likeness hw)
      obtain ⟨l', h6, h7, h8⟩ := ih hT2 h5
      exact ⟨(_, v', w1') :: l', .cons h3 h6, by simp [h7], .cons h4 h5 h8⟩

theorem says_layers {E : Ext W} (hE : E.BlackBox) (hA : E.Adds) {es es' : List Core} (h : Peval.Layers es es') :
    ∀ {w : World W} {l : List (Core × Val × World W)}, Says E w l → l.map (·.1) = es →
    ∃ l', Says E w l' ∧ l'.map (·.1) = es' ∧ Pairs Looks l l' := by
  induction h with
  | refl => intro w l h he; exact ⟨l, h, he, pairs_looks (E := E) (pairs_refl l)⟩
  | head h1 _ ih =>
    intro w l h he
    subst he
    obtain ⟨l', h2, h3, h4⟩ := says_layer hE hA h h1 Peval.same_refl
    obtain ⟨l'', h5, h6, h7⟩ := ih h2 h3
    exact ⟨l'', h5, h6, pairs_trans (pairs_looks h4) h7⟩

theorem says_det {E : Ext W} {w : World W} {l : List (Core × Val × World W)} (h : Says E w l) :
    ∀ {l'}, Says E w l' → l.map (·.1) = l'.map (·.1) → l = l' := by
  induction h with
  | nil w =>
    intro l' h' he
    cases h' with
    | nil => rfl
    | cons => simp at he
  | cons h1 _ ih =>
    intro l' h' he
    cases h' with
    | nil => simp at he
    | cons h1' h2' =>
      simp only [List.map_cons, List.cons.injEq] at he
      obtain ⟨rfl, he⟩ := he
      obtain ⟨rfl, rfl⟩ := eval_det h1 h1'
      rw [ih h2' he]

theorem says_plain {E : Ext W} {fixed : Sym → Bool} {w : World W} {l : List (Core × Val × World W)} (h : PlainlySays E fixed w l) :
    Says E w l := by
  induction h with
  | nil => exact .nil _
  | cons h1 _ ih => exact .cons (Interp.plain_eval h1) ih

/-- a session and its optimised session -/
theorem says_optimised {E : Ext W} (hE : E.BlackBox) (hA : E.Adds) {fixed : Sym → Bool} {r : Nat} {w : World W}
    {l l' : List (Core × Val × World W)} (h : Says E w l) (hp : (l.map (·.1)).mapM (Peval.peval r []) = some (l'.map (·.1)))
    (hh : (l.map (·.1)).all (harmless r [] []) = true) (h' : PlainlySays E fixed w l') : Pairs Looks l l' := by
  have hs := Peval.mapM_steps (Γ := []) (n := r) (σ := []) (fun e e' => Peval.peval_steps r [] [] e e') hp hh
  rw [Peval.substAll_nil] at hs
  obtain ⟨l2, h1, h2, h3⟩ := says_layers hE hA (Peval.layers_all hs) h rfl
  rwa [says_det h1 (says_plain h') h2] at h3

end Cora.Repl
