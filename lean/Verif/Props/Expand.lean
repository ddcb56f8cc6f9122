import Verif.Spec.Expand
import Verif.Model.MacroTable
import Verif.Props.Macro
/-
C93: macros defined by programs are expanded everywhere, by their last definition, and nothing else is changed.
-/
open Spec.Lang
namespace Cora.Macro

/-- the table after definitions, in their order -/
def tableAfter (defs : List (Sym × MacroFn)) : Table := defs.foldl (fun tb d => addToMacros (.sym d.1) d.2 tb) []

/-- A macro that gets along with the expander: if it works with an expander, it works in the same way with one that can do more. All
macros that do not call the expander are of this kind. -/
def Steady (f : MacroFn) : Prop :=
  ∀ mx mx' : Datum → M Datum, (∀ d k p, mx d k = some p → mx' d k = some p) → ∀ e k p, f mx e k = some p → f mx' e k = some p

/-- what the macros defined make of forms -/
def meaning (defs : List (Sym × MacroFn)) (protect : Sym) (ex : Exports) (x : Sym) : Option MacroRel :=
  (lastOf defs x).map fun f e k r k' => ∃ n, f (macroexpandTable (tableAfter defs) protect ex n) e k = some (r, k')

variable {defs : List (Sym × MacroFn)} {protect : Sym} {ex : Exports}

/-! ### the table -/

theorem tableAfter_append (ds : List (Sym × MacroFn)) (tb : Table) :
    ds.foldl (fun tb d => addToMacros (.sym d.1) d.2 tb) tb = (ds.map fun d => (Datum.sym d.1, d.2)).reverse ++ tb := by
  induction ds generalizing tb with
  | nil => rfl
  | cons d ds ih => simp [ih, addToMacros]

theorem lastOf_nil {α : Type} (x : Sym) : lastOf ([] : List (Sym × α)) x = none := rfl

theorem lastOf_concat {α : Type} (ds : List (Sym × α)) (d : Sym × α) (x : Sym) :
    lastOf (ds ++ [d]) x = if d.1 = x then some d.2 else lastOf ds x := by
  unfold lastOf
  rw [List.filter_append]
  by_cases h : d.1 = x
  · simp [h]
  · simp [h]

theorem expand1_table (mx : Datum → M Datum) (defs : List (Sym × MacroFn)) (h t : Datum) :
    macroexpand1H mx (.cons h t) (tableAfter defs) =
      match h with
      | .sym x => match lastOf defs x with
        | some f => f mx (.cons h t)
        | none => pure (.cons h t)
      | _ => pure (.cons h t) := by
  unfold tableAfter
  rw [tableAfter_append, List.append_nil]
  suffices H : ∀ ds : List (Sym × MacroFn), macroexpand1H mx (.cons h t) (ds.map fun d => (Datum.sym d.1, d.2)) =
      match h with
      | .sym x => match lastOf ds.reverse x with
        | some f => f mx (.cons h t)
        | none => pure (.cons h t)
      | _ => pure (.cons h t) by
    have := H defs.reverse
    rw [List.reverse_reverse] at this
    rw [← this, List.map_reverse]
  intro ds
  induction ds with
  | nil => cases h <;> rfl
  | cons d ds ih =>
    rw [List.map_cons, macroexpand1H, List.reverse_cons, ih]
    cases h with
    | sym x =>
      simp only [lastOf_concat, Datum.sym.injEq]
      by_cases hx : d.1 = x
      · subst hx; simp
      · rw [if_neg fun e => hx e.symm, if_neg hx]
    | _ => simp

/-! ### more steps do not change the result -/

theorem bind_some' {α β : Type} {x : M α} {f : α → M β} {k : Nat} {p : β × Nat} (h : (x >>= f) k = some p) :
    ∃ a k1, x k = some (a, k1) ∧ f a k1 = some p := by
  simp only [bind, StateT.bind] at h
  cases hx : x k with
  | none => rw [hx] at h; cases h
  | some q => rw [hx] at h; exact ⟨q.1, q.2, rfl, h⟩

theorem bind_of {α β : Type} {x : M α} {f : α → M β} {k k1 : Nat} {a : α} {p : β × Nat} (h1 : x k = some (a, k1)) (h2 : f a k1 = some p) :
    (x >>= f) k = some p := by
  simp only [bind, StateT.bind, h1, Option.bind_some, h2]

theorem lift_some {α : Type} {o : Option α} {k k1 : Nat} {a : α} (h : (liftM o : M α) k = some (a, k1)) : o = some a ∧ k1 = k := by
  cases o with
  | none => cases h
  | some b =>
    simp only [liftM, monadLift, MonadLift.monadLift, StateT.lift, bind, Option.bind_some, pure, Option.some.injEq, Prod.mk.injEq] at h
    exact ⟨by rw [h.1], h.2.symm⟩

theorem lift_of {α : Type} {o : Option α} {k : Nat} {a : α} (h : o = some a) : (liftM o : M α) k = some (a, k) := by
  subst h; rfl

theorem mapM_more {f g : Datum → M Datum} (hfg : ∀ d k p, f d k = some p → g d k = some p) : ∀ (e : Datum) (k : Nat) (p : Datum × Nat),
    mapM f e k = some p → mapM g e k = some p := by
  intro e
  induction e with
  | cons a d _ ih =>
    intro k p h
    rw [mapM] at h ⊢
    obtain ⟨x, k1, h1, h⟩ := bind_some' h
    obtain ⟨r, k2, h2, h⟩ := bind_some' h
    exact bind_of (hfg _ _ _ h1) (bind_of (ih _ _ h2) h)
  | _ => intro k p h; exact h

theorem more (hst : ∀ x f, lastOf defs x = some f → Steady f) (n : Nat) :
    (∀ e k p, expandTable (tableAfter defs) protect ex n e k = some p → expandTable (tableAfter defs) protect ex (n + 1) e k = some p) ∧
    (∀ e k p, macroexpandTable (tableAfter defs) protect ex n e k = some p →
      macroexpandTable (tableAfter defs) protect ex (n + 1) e k = some p) := by
  induction n with
  | zero => exact ⟨fun e k p h => (by cases e <;> cases h), fun e k p h => (by cases e <;> cases h)⟩
  | succ n ih =>
    refine ⟨fun e k p h => ?_, fun e k p h => ?_⟩
    · cases e with
      | cons h' t =>
        rw [expandTable] at h ⊢
        by_cases c1 : h' = .sym protect
        · rw [if_pos c1] at h ⊢; exact h
        rw [if_neg c1] at h ⊢
        by_cases c2 : h' = kw "lambda"
        · rw [if_pos c2] at h ⊢
          obtain ⟨ps, k1, h1, h⟩ := bind_some' h
          obtain ⟨b, k2, h2, h⟩ := bind_some' h
          obtain ⟨b', k3, h3, h⟩ := bind_some' h
          exact bind_of h1 (bind_of h2 (bind_of (ih.1 _ _ _ h3) h))
        rw [if_neg c2] at h ⊢
        by_cases c3 : h' = kw "quote"
        · rw [if_pos c3] at h ⊢; exact h
        rw [if_neg c3] at h ⊢
        rw [expand1_table] at h ⊢
        obtain ⟨e1, k1, h1, h⟩ := bind_some' h
        refine bind_of (a := e1) (k1 := k1) ?_ ?_
        · cases h' with
          | sym x =>
            simp only at h1 ⊢
            cases hl : lastOf defs x with
            | none => rw [hl] at h1; exact h1
            | some f =>
              rw [hl] at h1
              exact hst x f hl _ _ ih.2 _ _ _ h1
          | _ => exact h1
        · split at h
          · rename_i hc; rw [if_pos hc]; exact mapM_more ih.1 _ _ _ h
          · rename_i hc; rw [if_neg hc]; exact ih.1 _ _ _ h
      | _ => exact h
    · rw [macroexpandTable] at h ⊢
      obtain ⟨e1, k1, h1, h⟩ := bind_some' h
      exact bind_of (ih.1 _ _ _ h1) h

theorem more_le (hst : ∀ x f, lastOf defs x = some f → Steady f) {n m : Nat} (hm : n ≤ m) :
    (∀ e k p, expandTable (tableAfter defs) protect ex n e k = some p → expandTable (tableAfter defs) protect ex m e k = some p) ∧
    (∀ e k p, macroexpandTable (tableAfter defs) protect ex n e k = some p →
      macroexpandTable (tableAfter defs) protect ex m e k = some p) := by
  obtain ⟨j, rfl⟩ : ∃ j, m = n + j := ⟨m - n, by omega⟩
  clear hm
  induction j with
  | zero => exact ⟨fun _ _ _ h => h, fun _ _ _ h => h⟩
  | succ j ih => exact ⟨fun e k p h => (more hst (n + j)).1 _ _ _ (ih.1 _ _ _ h), fun e k p h => (more hst (n + j)).2 _ _ _ (ih.2 _ _ _ h)⟩

/-! ### the expander follows the rules -/

theorem expand_sound : ∀ (n : Nat) (e : Datum) (k : Nat) (r : Datum) (k' : Nat), expandTable (tableAfter defs) protect ex n e k = some (r, k') →
    Expand (meaning defs protect ex) protect e k r k' := by
  intro n
  induction n with
  | zero => intro e k r k' h; cases e <;> cases h
  | succ n ih =>
    intro e k r k' h
    have all : ∀ (e : Datum) (k : Nat) (r : Datum) (k' : Nat), mapM (expandTable (tableAfter defs) protect ex n) e k = some (r, k') →
        ExpandAll (meaning defs protect ex) protect e k r k' := by
      intro e
      induction e with
      | cons a d _ ihd =>
        intro k r k' h
        rw [mapM] at h
        obtain ⟨x, k1, h1, h⟩ := bind_some' h
        obtain ⟨y, k2, h2, h⟩ := bind_some' h
        cases h
        exact .cons _ _ _ _ _ _ _ (ih _ _ _ _ h1) (ihd _ _ _ h2)
      | _ => intro k r k' h; cases h; exact .done _ _ (by simp)
    cases e with
    | cons h' t =>
      rw [expandTable] at h
      by_cases c1 : h' = .sym protect
      · rw [if_pos c1] at h; cases h; subst c1; exact .marked _ _
      rw [if_neg c1] at h
      by_cases c2 : h' = kw "lambda"
      · rw [if_pos c2] at h
        obtain ⟨ps, k1, h1, h⟩ := bind_some' h
        obtain ⟨b, k2, h2, h⟩ := bind_some' h
        obtain ⟨b', k3, h3, h⟩ := bind_some' h
        cases h
        obtain ⟨g1, rfl⟩ := lift_some h1
        obtain ⟨g2, rfl⟩ := lift_some h2
        subst c2
        cases t with
        | cons x t =>
          cases t with
          | cons y t =>
            cases g1
            cases g2
            exact .lambda _ _ _ _ _ _ c1 (ih _ _ _ _ h3)
          | _ => cases g2
        | _ => cases g1
      rw [if_neg c2] at h
      by_cases c3 : h' = kw "quote"
      · rw [if_pos c3] at h; cases h; subst c3; exact .quoted _ _ c1
      rw [if_neg c3, expand1_table] at h
      obtain ⟨e1, k1, h1, h⟩ := bind_some' h
      have ord : Ordinary protect h' := ⟨c1, c2, c3⟩
      have plain : (∀ x, h' = .sym x → meaning defs protect ex x = none) → (pure (.cons h' t) : M Datum) k = some (e1, k1) →
          Expand (meaning defs protect ex) protect (.cons h' t) k r k' := by
        intro hm hp
        cases hp
        rw [if_pos rfl] at h
        exact .call _ _ _ _ _ ord hm (all _ _ _ _ h)
      cases h' with
      | sym x =>
        simp only at h1
        cases hl : lastOf defs x with
        | none =>
          rw [hl] at h1
          exact plain (fun y hy => by cases hy; unfold meaning; rw [hl]; rfl) h1
        | some f =>
          rw [hl] at h1
          have hm : meaning defs protect ex x = some fun e k r k' => ∃ n, f (macroexpandTable (tableAfter defs) protect ex n) e k = some (r, k') := by
            unfold meaning; rw [hl]; rfl
          split at h
          · rename_i hc
            subst hc
            exact .stays x _ t r k k1 k' ord hm ⟨n, h1⟩ (all _ _ _ _ h)
          · rename_i hc
            exact .use x _ t e1 r k k1 k' ord hm ⟨n, h1⟩ hc (ih _ _ _ _ h)
      | _ => exact plain (by simp) h1
    | _ => cases h; exact .atom _ _ (by simp)

theorem expand_complete (hst : ∀ x f, lastOf defs x = some f → Steady f) {e : Datum} {k : Nat} {r : Datum} {k' : Nat}
    (h : Expand (meaning defs protect ex) protect e k r k') : ∃ n, expandTable (tableAfter defs) protect ex n e k = some (r, k') := by
  have step : ∀ (n : Nat) (h' t : Datum) (k : Nat), Ordinary protect h' → expandTable (tableAfter defs) protect ex (n + 1) (.cons h' t) k =
      (do
        let exp1 ← macroexpand1H (macroexpandTable (tableAfter defs) protect ex n) (.cons h' t) (tableAfter defs)
        if exp1 = Datum.cons h' t then mapM (expandTable (tableAfter defs) protect ex n) exp1 else expandTable (tableAfter defs) protect ex n exp1) k := by
    intro n h' t k hp
    rw [expandTable, if_neg hp.1, if_neg hp.2.1, if_neg hp.2.2]
  refine Expand.rec (motive_1 := fun e k r k' _ => ∃ n, expandTable (tableAfter defs) protect ex n e k = some (r, k'))
    (motive_2 := fun e k r k' _ => ∃ n, mapM (expandTable (tableAfter defs) protect ex n) e k = some (r, k'))
    ?_ ?_ ?_ ?_ ?_ ?_ ?_ ?_ ?_ h
  · intro e k he
    cases e with
    | cons a d => exact absurd rfl (he a d)
    | _ => exact ⟨1, rfl⟩
  · intro t k
    refine ⟨1, ?_⟩
    rw [expandTable, if_pos rfl]; rfl
  · intro t k hq
    refine ⟨1, ?_⟩
    rw [expandTable, if_neg hq, if_neg (by decide), if_pos rfl]; rfl
  · rintro ps b rest b' k k' hl _ ⟨n, hn⟩
    refine ⟨n + 1, ?_⟩
    rw [expandTable, if_neg hl, if_pos rfl]
    exact bind_of (lift_of rfl) (bind_of (lift_of rfl) (bind_of hn rfl))
  · rintro x m t r e' k k1 k' ho hm h1 hne _ ⟨n, hn⟩
    unfold meaning at hm
    cases hl : lastOf defs x with
    | none => rw [hl] at hm; cases hm
    | some f =>
      rw [hl] at hm
      cases hm
      obtain ⟨n1, h1⟩ := h1
      refine ⟨max n n1 + 1, ?_⟩
      rw [step _ _ _ _ ho, expand1_table]
      refine bind_of (a := r) (k1 := k1) ?_ ?_
      · simp only [hl]
        exact hst x f hl _ _ (more_le hst (Nat.le_max_right n n1)).2 _ _ _ h1
      · rw [if_neg hne]
        exact (more_le hst (Nat.le_max_left n n1)).1 _ _ _ hn
  · rintro x m t e' k k1 k' ho hm h1 _ ⟨n, hn⟩
    unfold meaning at hm
    cases hl : lastOf defs x with
    | none => rw [hl] at hm; cases hm
    | some f =>
      rw [hl] at hm
      cases hm
      obtain ⟨n1, h1⟩ := h1
      refine ⟨max n n1 + 1, ?_⟩
      rw [step _ _ _ _ ho, expand1_table]
      refine bind_of (a := .cons (.sym x) t) (k1 := k1) ?_ ?_
      · simp only [hl]
        exact hst x f hl _ _ (more_le hst (Nat.le_max_right n n1)).2 _ _ _ h1
      · rw [if_pos rfl]
        exact mapM_more (more_le hst (Nat.le_max_left n n1)).1 _ _ _ hn
  · rintro h' t e' k k' ho hm _ ⟨n, hn⟩
    refine ⟨n + 1, ?_⟩
    rw [step _ _ _ _ ho, expand1_table]
    refine bind_of (a := .cons h' t) (k1 := k) ?_ (by rw [if_pos rfl]; exact hn)
    cases h' with
    | sym x =>
      simp only
      have := hm x rfl
      unfold meaning at this
      cases hl : lastOf defs x with
      | none => rfl
      | some f => rw [hl] at this; cases this
    | _ => rfl
  · intro e k he
    refine ⟨0, ?_⟩
    cases e with
    | cons a d => exact absurd rfl (he a d)
    | _ => rfl
  · rintro a d a' d' k k1 k' _ _ ⟨n1, h1⟩ ⟨n2, h2⟩
    refine ⟨max n1 n2, ?_⟩
    rw [mapM]
    exact bind_of ((more_le hst (Nat.le_max_left n1 n2)).1 _ _ _ h1)
      (bind_of (mapM_more (more_le hst (Nat.le_max_right n1 n2)).1 _ _ _ h2) rfl)

/-- **C93**. After any definitions of macros, the expander turns a form into another exactly if the rules of expansion say so, where
every macro is what its last definition makes of forms. -/
theorem C93_expand (hst : ∀ x f, lastOf defs x = some f → Steady f) (e : Datum) (k : Nat) (r : Datum) (k' : Nat) :
    (∃ N, ∀ n, N ≤ n → expandTable (tableAfter defs) protect ex n e k = some (r, k')) ↔
      Expand (meaning defs protect ex) protect e k r k' := by
  constructor
  · rintro ⟨N, hN⟩
    exact expand_sound N _ _ _ _ (hN N (Nat.le_refl N))
  · intro h
    obtain ⟨n, hn⟩ := expand_complete hst h
    exact ⟨n, fun m hm => (more_le hst hm).1 _ _ _ hn⟩

/-- **C93**, the result is the only one -/
theorem C93_one_result (hst : ∀ x f, lastOf defs x = some f → Steady f) {e : Datum} {k : Nat} {r r1 : Datum} {k' k1 : Nat}
    (h : Expand (meaning defs protect ex) protect e k r k') (h1 : Expand (meaning defs protect ex) protect e k r1 k1) : r = r1 ∧ k' = k1 := by
  obtain ⟨N, hN⟩ := (C93_expand hst e k r k').mpr h
  obtain ⟨N1, hN1⟩ := (C93_expand hst e k r1 k1).mpr h1
  have a := hN (max N N1) (Nat.le_max_left _ _)
  rw [hN1 (max N N1) (Nat.le_max_right _ _)] at a
  simpa using a.symm

/-! ### nothing is left to expand -/

/-- **C93**, what comes out has no uses of macros, if no macro makes a form into the bare name of a macro or of a core form, and only
macros in `stay` leave a form as it is. `_partial`: see `C93_head_wrong`. -/
theorem C93_clean_partial (mac : Sym → Option MacroRel) (stay : Sym → Prop) (source : Datum → Prop)
    (hstay : ∀ x m t k k1, mac x = some m → m (.cons (.sym x) t) k (.cons (.sym x) t) k1 → stay x)
    (hname : ∀ x m t k y k1, mac x = some m → m (.cons (.sym x) t) k (.sym y) k1 → Ordinary protect (.sym y) ∧ (mac y = none ∨ stay y))
    (hsource : ∀ t, ¬ source (.cons (.sym protect) t))
    (hparts : ∀ a d, source (.cons a d) → source a ∧ source d)
    (hmade : ∀ x m t k r k1, mac x = some m → source (.cons (.sym x) t) → m (.cons (.sym x) t) k r k1 → source r)
    {e : Datum} {k : Nat} {r : Datum} {k' : Nat} (h : Expand mac protect e k r k') (he : source e) : Clean mac protect stay r := by
  have key : source e → Clean mac protect stay r ∧ ((∀ y, e ≠ .sym y) → ∀ y, r = .sym y → Ordinary protect (.sym y) ∧ (mac y = none ∨ stay y)) := by
    refine Expand.rec (motive_1 := fun e k r k' _ => source e → Clean mac protect stay r ∧
        ((∀ y, e ≠ .sym y) → ∀ y, r = .sym y → Ordinary protect (.sym y) ∧ (mac y = none ∨ stay y)))
      (motive_2 := fun e k r k' _ => source e → CleanAll mac protect stay r ∧ (∀ h t, e = .cons h t → ∃ h' t', r = .cons h' t' ∧
        ((∃ y, h = .sym y ∧ h' = .sym y) ∨ ((∀ y, h ≠ .sym y) ∧ (∀ y, h' = .sym y → Ordinary protect (.sym y) ∧ (mac y = none ∨ stay y))))))
      ?_ ?_ ?_ ?_ ?_ ?_ ?_ ?_ ?_ h
    · exact fun e k he _ => ⟨.atom _ he, fun hs y hy => absurd hy (hs y)⟩
    · exact fun t k hs => absurd hs (hsource t)
    · exact fun t k _ _ => ⟨.quoted t, fun _ y hy => by cases hy⟩
    · refine fun ps b rest b' k k' _ _ ih hs => ⟨.lambda ps b' (ih ?_).1, fun _ y hy => by cases hy⟩
      exact (hparts _ _ (hparts _ _ (hparts _ _ hs).2).2).1
    · intro x m t r e' k k1 k' ho hm h1 hne h2 ih hs
      obtain ⟨i1, i2⟩ := ih (hmade x m t k r k1 hm hs h1)
      refine ⟨i1, fun _ y hy => ?_⟩
      by_cases hr : ∃ z, r = .sym z
      · obtain ⟨z, rfl⟩ := hr
        cases h2 with
        | atom => cases hy; exact hname x m t k y _ hm h1
      · exact i2 (fun z hz => hr ⟨z, hz⟩) y hy
    · intro x m t e' k k1 k' ho hm h1 h2 ih hs
      obtain ⟨i1, i2⟩ := ih hs
      obtain ⟨h', t', rfl, ⟨y, e1, e2⟩ | ⟨e1, _⟩⟩ := i2 _ _ rfl
      · cases e1
        subst e2
        exact ⟨.call _ _ ho (fun z hz => by cases hz; exact .inr (hstay _ m t k k1 hm h1)) i1, fun _ y hy => by cases hy⟩
      · exact absurd rfl (e1 x)
    · intro h t e' k k' ho hm h2 ih hs
      obtain ⟨i1, i2⟩ := ih hs
      obtain ⟨h', t', rfl, ⟨y, rfl, rfl⟩ | ⟨e1, e2⟩⟩ := i2 _ _ rfl
      · exact ⟨.call _ _ ho (fun z hz => by cases hz; exact .inl (hm _ rfl)) i1, fun _ y hy => by cases hy⟩
      · refine ⟨.call _ _ ?_ (fun z hz => (e2 z hz).2) i1, fun _ y hy => by cases hy⟩
        cases h' with
        | sym y => exact (e2 y rfl).1
        | _ => exact ⟨by simp, by simp [kw], by simp [kw]⟩
    · exact fun e k he _ => ⟨.nil, fun h t hh => absurd hh (he h t)⟩
    · intro a d a' d' k k1 k' h1 _ ih1 ih2 hs
      obtain ⟨s1, s2⟩ := hparts a d hs
      refine ⟨.cons _ _ (ih1 s1).1 (ih2 s2).1, fun h t hh => ?_⟩
      cases hh
      refine ⟨a', d', rfl, ?_⟩
      by_cases ha : ∃ y, a = .sym y
      · obtain ⟨y, rfl⟩ := ha
        cases h1 with
        | atom => exact .inl ⟨y, rfl, rfl⟩
      · exact .inr ⟨fun y hy => ha ⟨y, hy⟩, (ih1 s1).2 fun y hy => ha ⟨y, hy⟩⟩
  exact (key he).1

/-- **C93**, what has no uses of macros is not changed (so nothing happens if a form is expanded again), and no symbols are made, as
long as the macros in `stay` leave the forms in it. -/
theorem C93_again (mac : Sym → Option MacroRel) (stay : Sym → Prop) (hq : protect ≠ .named "quote") (hl : protect ≠ .named "lambda")
    (hstay : ∀ x t k, stay x → mac x = none ∨ ∃ m, mac x = some m ∧ m (.cons (.sym x) t) k (.cons (.sym x) t) k)
    {e : Datum} (h : Clean mac protect stay e) (k : Nat) : Expand mac protect e k e k := by
  refine Clean.rec (motive_1 := fun e _ => ∀ k, Expand mac protect e k e k) (motive_2 := fun e _ => ∀ k, ExpandAll mac protect e k e k)
    ?_ ?_ ?_ ?_ ?_ ?_ h k
  · exact fun e he k => .atom e k he
  · exact fun t k => .quoted t k (by simpa [kw] using Ne.symm hq)
  · exact fun ps b _ ih k => .lambda ps b .nil b k k (by simpa [kw] using Ne.symm hl) (ih k)
  · intro h t ho hm _ ih k
    by_cases hs : ∃ x, h = .sym x ∧ mac x ≠ none
    · obtain ⟨x, rfl, hx⟩ := hs
      rcases hm x rfl with h1 | h1
      · exact absurd h1 hx
      · rcases hstay x t k h1 with h2 | ⟨m, h2, h3⟩
        · exact absurd h2 hx
        · exact .stays x m t _ k k k ho h2 h3 (ih k)
    · refine .call h t _ k k ho (fun x hx => ?_) (ih k)
      cases hmx : mac x with
      | none => rfl
      | some m => exact absurd ⟨x, hx, by rw [hmx]; simp⟩ hs
  · exact fun k => .done _ k (by simp)
  · exact fun a d _ _ ih1 ih2 k => .cons a d a d k k k (ih1 k) (ih2 k)

/-! ### the macros of init.cora -/

theorem steady_plain (g : Datum → M Datum) : Steady fun _ e => g e := fun _ _ _ _ _ _ h => h

theorem matchHelper_more {mx mx' : Datum → M Datum} (hmx : ∀ d k p, mx d k = some p → mx' d k = some p) (v : Datum) :
    ∀ (rules : Datum) (k : Nat) (p : Datum × Nat), matchHelper mx v rules k = some p → matchHelper mx' v rules k = some p := by
  intro rules
  suffices H : ∀ n (rules : Datum), sizeOf rules ≤ n → ∀ (k : Nat) (p : Datum × Nat), matchHelper mx v rules k = some p →
      matchHelper mx' v rules k = some p from H _ rules (Nat.le_refl _)
  intro n
  induction n with
  | zero => intro rules hr; cases rules <;> simp at hr
  | succ n ih =>
    intro rules hr k p h
    match rules, h with
    | .nil, h => exact h
    | .cons pat (.cons act rest), h =>
      rw [matchHelper] at h ⊢
      obtain ⟨a1, k1, h1, h⟩ := bind_some' h
      obtain ⟨a2, k2, h2, h⟩ := bind_some' h
      obtain ⟨a3, k3, h3, h⟩ := bind_some' h
      obtain ⟨a4, k4, h4, h⟩ := bind_some' h
      obtain ⟨a5, k5, h5, h⟩ := bind_some' h
      refine bind_of h1 (bind_of h2 (bind_of (hmx _ _ _ h3) (bind_of h4 (bind_of (ih rest ?_ _ _ h5) h))))
      simp at hr; omega
    | .cons _ .nil, h => exact h
    | .cons _ (.sym _), h => exact h
    | .cons _ (.int _), h => exact h
    | .cons _ (.bool _), h => exact h
    | .cons _ (.str _), h => exact h
    | .sym _, h => exact h
    | .int _, h => exact h
    | .bool _, h => exact h
    | .str _, h => exact h

theorem steady_match : Steady fun mx e => rewriteMatch mx e := by
  intro mx mx' hmx e k p h
  simp only [rewriteMatch] at h ⊢
  obtain ⟨a1, k1, h1, h⟩ := bind_some' h
  obtain ⟨a2, k2, h2, h⟩ := bind_some' h
  obtain ⟨a3, k3, h3, h⟩ := bind_some' h
  refine bind_of h1 (bind_of h2 (bind_of (hmx _ _ _ h3) ?_))
  cases a3 with
  | cons h' t =>
    simp only at h ⊢
    split at h
    · rename_i hc; rw [if_pos hc]; exact matchHelper_more hmx _ _ _ _ h
    · rename_i hc
      rw [if_neg hc]
      obtain ⟨a4, k4, h4, h⟩ := bind_some' h
      obtain ⟨a5, k5, h5, h⟩ := bind_some' h
      exact bind_of h4 (bind_of (matchHelper_more hmx _ _ _ _ h5) h)
  | _ => exact matchHelper_more hmx _ _ _ _ h

/-- **C93**, all macros of init.cora, also `match`, which calls the expander, are such as `C93_expand` asks for. -/
theorem C93_init_steady (s : String) (f : MacroFn) (h : stdMacro s = some f) : Steady f := by
  unfold stdMacro at h
  split at h <;> first
    | (injection h with h; subst h; first | exact steady_match | exact steady_plain _)
    | cases h

/-- the macros of init.cora, in the order of their definitions -/
def initDefs : List (Sym × MacroFn) :=
  ["defmacro", "list", "defun", "let", "cond", "or", "and", "list-rest", "match", "func", "begin", "backquote", "fold-apply",
    "package"].filterMap fun s => (stdMacro s).map fun f => (Sym.named s, f)

theorem initDefs_last (x : Sym) : lastOf initDefs x = initMacros.fn x := by
  cases x with
  | gen n => rfl
  | named s =>
    by_cases h : s ∈ ["defmacro", "list", "defun", "let", "cond", "or", "and", "list-rest", "match", "func", "begin", "backquote",
      "fold-apply", "package"]
    · simp only [List.mem_cons, List.not_mem_nil, or_false] at h
      rcases h with rfl | rfl | rfl | rfl | rfl | rfl | rfl | rfl | rfl | rfl | rfl | rfl | rfl | rfl <;> rfl
    · simp only [List.mem_cons, List.not_mem_nil, or_false, not_or] at h
      obtain ⟨h1, h2, h3, h4, h5, h6, h7, h8, h9, h10, h11, h12, h13, h14⟩ := h
      have hs : stdMacro s = none := by
        unfold stdMacro
        split <;> first | contradiction | rfl
      show _ = stdMacro s
      rw [hs]
      simp [lastOf, initDefs, stdMacro, Ne.symm h1, Ne.symm h2, Ne.symm h3, Ne.symm h4, Ne.symm h5, Ne.symm h6, Ne.symm h7, Ne.symm h8, Ne.symm h9,
        Ne.symm h10, Ne.symm h11, Ne.symm h12, Ne.symm h13, Ne.symm h14]

/-- **C93**, the expander with the table is the expander of C42 to C46 with the macros that the table stands for; after init.cora these
are the macros of init.cora. -/
theorem C93_table (defs : List (Sym × MacroFn)) (protect : Sym) (ex : Exports) (n : Nat) :
    expandTable (tableAfter defs) protect ex n = expandBoot ⟨lastOf defs, protect, ex⟩ n ∧
    macroexpandTable (tableAfter defs) protect ex n = macroexpand ⟨lastOf defs, protect, ex⟩ n := by
  induction n with
  | zero => exact ⟨funext fun e => by cases e <;> rfl, funext fun e => by cases e <;> rfl⟩
  | succ n ih =>
    refine ⟨funext fun e => ?_, funext fun e => ?_⟩
    · cases e with
      | cons h t =>
        rw [expandTable, expandBoot, ih.1, ih.2, expand1_table]
        cases h with
        | sym x =>
          simp only
          congr
          cases lastOf defs x <;> rfl
        | _ => rfl
      | _ => rfl
    · rw [macroexpandTable, macroexpand, ih.1]

theorem C93_init (ex : Exports) (n : Nat) : expandTable (tableAfter initDefs) (.gen 0) ex n = expandBoot { initMacros with ex := ex } n := by
  rw [(C93_table _ _ _ n).1]
  congr 1
  exact congrArg (fun f => Macros.mk f _ _) (funext initDefs_last)

/-! ### what a definition is -/

/-- **C93**, definitions: `(defmacro name (p …) body)` is a call of the function that adds to the table, with the name, not evaluated, and
the function of the parameters and the body. -/
theorem C93_defmacro {mt : Macros} (hs : Std mt) (ha : ¬ special mt (.named "cora/init#add-to-*macros*")) (name : Datum) (ps : List Sym)
    (body : Datum) {k k' : Nat} {c : Core} (hb : Turns mt body k c k') :
    Turns mt (.list [kw "defmacro", name, .list (ps.map .sym), body]) k
      (.app (.var (.named "cora/init#add-to-*macros*")) [.quote name, .lam ps c]) k' := by
  refine turns_std hs (by decide) (by decide) rfl (g := defmacroMacro) (by simp [defmacroMacro, cadr, caddr, cdddr, cddr, cdr, car, Datum.list]; rfl)
    (by simp [kw]) ?_
  exact turns_app_sym hs ha (.cons (turns_quote hs name k) (.cons (turns_lam hs hb) .nil))

/-- **C93**, definitions: evaluating the call hands the name and the function to the one that adds to the table, `add`, and changes nothing
else. -/
theorem C93_defmacro_adds {W : Type} (E : Ext W) (env : Env) (w : World W) (add : Val) (name : Datum) (ps : List Sym) (c : Core)
    (hn : find (.named "cora/init#add-to-*macros*") env = none) (hw : w.globals (.named "cora/init#add-to-*macros*") = some add) (v : Val)
    (w' : World W) :
    Eval E env w (.app (.var (.named "cora/init#add-to-*macros*")) [.quote name, .lam ps c]) v w' ↔
      Apply E w add [name.val, .clo ps c (capture (Core.lam ps c).fv env)] v w' := by
  have hp : (Core.var (.named "cora/init#add-to-*macros*")).primOf env = none := by simp [Core.primOf, primArity]
  constructor
  · intro h
    cases h with
    | prim _ _ _ _ q vs _ w1 _ h1 h2 h3 => rw [hp] at h1; cases h1
    | app _ _ _ _ g' vs _ w1 w2 _ h1 h2 h3 h4 =>
      cases h2 with
      | «local» _ _ _ _ h5 => rw [hn] at h5; cases h5
      | global _ _ _ _ h5 h6 =>
        rw [hw] at h6
        cases h6
        cases h3 with
        | cons _ _ _ _ _ _ _ _ q1 q2 =>
          cases q1
          cases q2 with
          | cons _ _ _ _ _ _ _ _ q3 q4 => cases q3; cases q4; exact h4
  · intro h
    exact .app _ _ _ _ add _ _ w w _ hp (.global _ _ _ _ hn hw) (.cons _ _ _ _ _ _ _ _ (.quote ..) (.cons _ _ _ _ _ _ _ _ (.lam ..) (.nil ..))) h

/-- `(defmacro m (x) x)` -/
example := C93_defmacro initMacros_std (by simp [special, initMacros, stdMacro]) (kw "m") [.named "x"] (kw "x") (turns_var (x := .named "x") (k := 1))

/-! ### where the code disagrees -/

/-- a form with a macro that makes it into a name -/
def headDefs : List (Sym × MacroFn) := initDefs ++ [(.named "which", fun _ _ => return kw "list")]

/-- **C93**, heads: a form whose head is a use of a macro, and that macro gives the name of a macro, is left with a macro at its head:
`((which) 1)` becomes `(list 1)` and not `(cons 1 ())`. -/
theorem C93_head_wrong : ∃ N, ∀ n, N ≤ n →
    expandTable (tableAfter headDefs) (.gen 0) (fun _ => []) n (.list [.list [kw "which"], .int 1]) 1 = some (.list [kw "list", .int 1], 1) ∧
    expandTable (tableAfter headDefs) (.gen 0) (fun _ => []) n (.list [kw "list", .int 1]) 1 = some (.list [kw "cons", .int 1, .nil], 1) := by
  have hst : ∀ x f, lastOf headDefs x = some f → Steady f := by
    intro x f h
    unfold headDefs at h
    rw [lastOf_concat] at h
    split at h
    · injection h with h; subst h; exact steady_plain _
    · rw [initDefs_last] at h
      cases x with
      | gen => cases h
      | named s => exact C93_init_steady s f h
  refine ⟨10, fun n hn => ⟨(more_le hst hn).1 _ _ _ rfl, (more_le hst hn).1 _ _ _ rfl⟩⟩

/-- **C93**, local variables: a local variable with the name of a macro is not seen at the head of a form. `(lambda (list) (list 1))`
does not call its parameter. -/
theorem C93_local_name_wrong (ex : Exports) : ∃ N, ∀ n, N ≤ n →
    expandTable (tableAfter initDefs) (.gen 0) ex n (.list [kw "lambda", .list [kw "list"], .list [kw "list", .int 1]]) 1 =
      some (.list [kw "lambda", .list [kw "list"], .list [kw "cons", .int 1, .nil]], 1) := by
  have hst : ∀ x f, lastOf initDefs x = some f → Steady f := by
    intro x f h
    rw [initDefs_last] at h
    cases x with
    | gen => cases h
    | named s => exact C93_init_steady s f h
  exact ⟨10, fun n hn => (more_le hst hn).1 _ _ _ rfl⟩

/-- **C93**, bodies: of a function with several forms in its body, without a message, only the first is kept. This holds for `lambda`
and for `defun`. -/
theorem C93_body_lost_wrong (hst : ∀ x f, lastOf defs x = some f → Steady f) (hl : protect ≠ .named "lambda") (ps a rest a' : Datum)
    (k k' : Nat) (h : Expand (meaning defs protect ex) protect (.list [kw "lambda", ps, a]) k a' k') :
    Expand (meaning defs protect ex) protect (.cons (kw "lambda") (.cons ps (.cons a rest))) k a' k' ∧
    ∀ f, defunMacro (.cons (kw "defun") (.cons f (.cons ps (.cons a rest)))) = defunMacro (.list [kw "defun", f, ps, a]) := by
  refine ⟨?_, fun f => rfl⟩
  generalize he : Datum.list [kw "lambda", ps, a] = e at h
  have : ∀ b' k1, Expand (meaning defs protect ex) protect a k b' k1 → Expand (meaning defs protect ex) protect
      (.cons (kw "lambda") (.cons ps (.cons a rest))) k (.list [kw "lambda", ps, b']) k1 :=
    fun b' k1 h => .lambda _ _ _ _ _ _ (by simpa [kw] using Ne.symm hl) h
  cases h with
  | atom _ _ h1 => subst he; exact absurd rfl (h1 _ _)
  | marked => injection he with e1; simp [kw] at e1; exact absurd e1.symm hl
  | quoted => injection he with e1; simp [kw] at e1
  | lambda ps1 b rest1 b' _ _ h1 h2 =>
    injection he with _ e2
    injection e2 with e3 e4
    injection e4 with e5 _
    subst e3 e5
    exact this _ _ h2
  | use x m t r e' k k1 k' ho => injection he with e1; exact absurd e1.symm (by simpa [kw] using ho.2.1)
  | stays x m t e' k k1 k' ho => injection he with e1; exact absurd e1.symm (by simpa [kw] using ho.2.1)
  | call h t e' k k' ho => injection he with e1; exact absurd e1.symm ho.2.1

/-! ### a case -/

/-- `(twice e)` is `(do e e)`, then defined again: `(twice e)` is `(begin e e)`; both with the macros of init.cora -/
def demoDefs : List (Sym × MacroFn) := initDefs ++
  [(.named "twice", fun _ e => liftM ((cadr e).map fun a => .list [kw "do", a, a])),
   (.named "twice", fun _ e => liftM ((cadr e).map fun a => .list [kw "list", a, a]))]

theorem demo_steady : ∀ x f, lastOf demoDefs x = some f → Steady f := by
  intro x f h
  have : demoDefs = (initDefs ++ [(.named "twice", fun _ e => liftM ((cadr e).map fun a => .list [kw "do", a, a]))]) ++
    [(.named "twice", fun _ e => liftM ((cadr e).map fun a => .list [kw "list", a, a]))] := rfl
  rw [this, lastOf_concat, lastOf_concat, initDefs_last] at h
  split at h
  · injection h with h; subst h; exact steady_plain _
  cases x with
  | gen => cases h
  | named s => exact C93_init_steady s f h

/-- non-vacuity of `C93_expand`: `(f (twice (twice x)) (quote (twice x)))`, with `match` among the macros -/
example : Expand (meaning demoDefs (.gen 0) fun _ => []) (.gen 0)
    (.list [kw "f", .list [kw "twice", .list [kw "twice", kw "x"]], .list [kw "quote", .list [kw "twice", kw "x"]]]) 1
    (.list [kw "f", .list [kw "cons", .list [kw "cons", kw "x", .list [kw "cons", kw "x", .nil]],
      .list [kw "cons", .list [kw "cons", kw "x", .list [kw "cons", kw "x", .nil]], .nil]], .list [kw "quote", .list [kw "twice", kw "x"]]]) 1 :=
  (C93_expand demo_steady _ _ _ _).mp ⟨20, fun _ hn => (more_le demo_steady hn).1 _ _ _ rfl⟩

/-- a macro as in `C93_clean_partial` -/
def demoMac (x : Sym) : Option MacroRel :=
  if x = .named "twice" then some fun e k r k1 => k1 = k ∧ ∃ a, e = .list [kw "twice", a] ∧ r = .list [kw "do", a, a] else none

mutual
/-- no generated symbol in the form -/
def noGen : Datum → Bool
  | .cons a d => noGen a && noGen d
  | .sym (.gen _) => false
  | _ => true
end

/-- non-vacuity of `C93_clean_partial` and `C93_again` -/
example : ∃ r, Expand demoMac (.gen 0) (.list [kw "f", .list [kw "twice", kw "x"]]) 1 r 1 ∧ Clean demoMac (.gen 0) (fun _ => False) r ∧
    Expand demoMac (.gen 0) r 1 r 1 := by
  have ho : ∀ s : String, s ≠ "lambda" → s ≠ "quote" → Ordinary (.gen 0) (kw s) :=
    fun s h1 h2 => ⟨by simp [kw], by simpa [kw] using h1, by simpa [kw] using h2⟩
  have hx : ∀ s : String, Expand demoMac (.gen 0) (kw s) 1 (kw s) 1 := fun s => .atom _ _ (by simp [kw])
  have hn : ∀ s : String, s ≠ "twice" → demoMac (.named s) = none := fun s h => by unfold demoMac; rw [if_neg (by simpa using h)]
  have h : Expand demoMac (.gen 0) (.list [kw "f", .list [kw "twice", kw "x"]]) 1 (.list [kw "f", .list [kw "do", kw "x", kw "x"]]) 1 := by
    refine .call _ _ _ _ _ (ho "f" (by decide) (by decide)) (fun x hx => by cases hx; exact hn _ (by decide)) (.cons _ _ _ _ _ 1 _ (hx _) (.cons _ _ _ _ _ 1 _ ?_ (.done _ _ (by simp [Datum.list]))))
    refine .use _ _ _ (.list [kw "do", kw "x", kw "x"]) _ _ 1 _ (ho "twice" (by decide) (by decide)) (if_pos rfl) ⟨rfl, kw "x", rfl, rfl⟩ (by simp [Datum.list, kw]) ?_
    exact .call _ _ _ _ _ (ho "do" (by decide) (by decide)) (fun x hx => by cases hx; exact hn _ (by decide))
      (.cons _ _ _ _ _ 1 _ (hx _) (.cons _ _ _ _ _ 1 _ (hx _) (.cons _ _ _ _ _ 1 _ (hx _) (.done _ _ (by simp [Datum.list])))))
  have hm : ∀ x m, demoMac x = some m → x = .named "twice" ∧ m = fun e k r k1 => k1 = k ∧ ∃ a, e = .list [kw "twice", a] ∧ r = .list [kw "do", a, a] := by
    intro x m h
    unfold demoMac at h
    split at h
    · rename_i hx; exact ⟨hx, by injection h with h; exact h.symm⟩
    · cases h
  have hc := C93_clean_partial demoMac (fun _ => False) (fun d => noGen d = true)
    (fun x m t k k1 h h1 => by
      obtain ⟨rfl, rfl⟩ := hm x m h
      obtain ⟨_, a, _, e⟩ := h1
      simp [Datum.list, kw] at e)
    (fun x m t k y k1 h h1 => by
      obtain ⟨rfl, rfl⟩ := hm x m h
      obtain ⟨_, a, _, e⟩ := h1
      simp [Datum.list] at e)
    (fun t => by simp [noGen]) (fun a d h => by simpa [noGen] using h)
    (fun x m t k r k1 h hs h1 => by
      obtain ⟨rfl, rfl⟩ := hm x m h
      obtain ⟨_, a, e, rfl⟩ := h1
      simp only [Datum.list, Datum.cons.injEq] at e
      obtain ⟨_, rfl⟩ := e
      have : noGen a = true := by simpa [noGen] using hs
      simp [Datum.list, noGen, this, kw])
    h (by decide)
  exact ⟨_, h, hc, C93_again demoMac _ (by simp) (by simp) (fun _ _ _ h => h.elim) hc 1⟩

/-- non-vacuity of `C93_body_lost_wrong` -/
example := C93_body_lost_wrong (defs := demoDefs) (protect := .gen 0) (ex := fun _ => []) demo_steady (by simp) (.list [kw "x"]) (kw "x")
  (.list [kw "y"]) _ 1 1 (.lambda _ _ _ _ _ _ (by simp [kw]) (.atom _ _ (by simp [kw])))

end Cora.Macro
