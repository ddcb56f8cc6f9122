import Verif.Lemmas.Lang
/-
Application in the core language does not depend on how the arguments are grouped.
-/
namespace Spec.Lang
variable {W : Type} {E : Ext W}

theorem apply_split {w : World W} {f : Val} {args : List Val} {v : Val} {w2 : World W} (h : Apply E w f args v w2) :
    ∀ a b, args = a ++ b → a ≠ [] → b ≠ [] → ∃ g w1, Apply E w f a g w1 ∧ Apply E w1 g b v w2 := by
  have part : ∀ (w : World W) (f : Val) (n : Nat) (a b : List Val) v w2, f.arity = some n → a ≠ [] → b ≠ [] → a.length < n →
      Apply E w f (a ++ b) v w2 → ∃ g w1, Apply E w f a g w1 ∧ Apply E w1 g b v w2 := fun w f n a b v w2 hn ha hb hl h =>
    ⟨.pap f a, w, .less _ _ n _ hn (List.length_pos_iff.2 ha) hl, .pap _ _ _ _ _ _ hb h⟩
  refine Apply.rec (motive_1 := fun _ _ _ _ _ _ => True) (motive_2 := fun _ _ _ _ _ _ => True)
    (motive_3 := fun w f args v w2 _ => ∀ a b, args = a ++ b → a ≠ [] → b ≠ [] →
      ∃ g w1, Apply E w f a g w1 ∧ Apply E w1 g b v w2)
    ?_ ?_ ?_ ?_ ?_ ?_ ?_ ?_ ?_ ?_ ?_ ?_ ?_ ?_ ?_ ?_ ?_ ?_ ?_ ?_ ?_ h
  iterate 13 (intros; trivial)
  · intro w ps b env args v w1 hl he _ x y hxy hx hy
    subst hxy
    have := List.length_pos_iff.2 hy
    exact part w _ ps.length x y v w1 rfl hx hy (by simp at hl; omega) (.clo _ _ _ _ _ _ _ hl he)
  · intro w p args v w1 hl he x y hxy hx hy
    subst hxy
    have := List.length_pos_iff.2 hy
    exact part w _ _ x y v w1 hl hx hy (by simp; omega) (.prim _ _ _ _ _ hl he)
  · intro w id n args v w1 hl he x y hxy hx hy
    subst hxy
    have := List.length_pos_iff.2 hy
    exact part w _ n x y v w1 rfl hx hy (by simp at hl; omega) (.native _ _ _ _ _ _ hl he)
  · intro w f n hn h0 x y hxy hx hy
    simp at hxy
    exact absurd hxy.1 hx
  · intro w f n args hn h0 hl x y hxy hx hy
    subst hxy
    have := List.length_pos_iff.2 hy
    exact part w f n x y _ _ hn hx hy (by simp at hl; omega) (.less _ _ n _ hn h0 hl)
  · intro w f n args g v w1 w2 hn hl h1 h2 i1 i2 x y hxy hx hy
    subst hxy
    by_cases h : x.length < n
    · exact part w f n x y _ _ hn hx hy h (.more _ _ n _ _ _ _ _ hn hl h1 h2)
    · by_cases he : x.length = n
      · subst he
        rw [List.take_left] at h1
        rw [List.drop_left] at h2
        exact ⟨g, w1, h1, h2⟩
      · have ht : (x ++ y).take n = x.take n := List.take_append_of_le_length (by omega)
        have hd : (x ++ y).drop n = x.drop n ++ y := List.drop_append_of_le_length (by omega)
        rw [ht] at h1
        obtain ⟨g2, w3, h3, h4⟩ := i2 (x.drop n) y hd (by simp; omega) hy
        exact ⟨g2, w3, .more _ _ n _ _ _ _ _ hn (by omega) h1 h3, h4⟩
  · intro w f got args v w1 hne h i x y hxy hx hy
    subst hxy
    obtain ⟨g, w2, h1, h2⟩ := i (got ++ x) y (by simp) (by simp [hx]) hy
    exact ⟨g, w2, .pap _ _ _ _ _ _ hx h1, h2⟩
  · intro w f got x y hxy hx hy
    simp at hxy
    exact absurd hxy.1 hx

theorem apply_join {w : World W} {f : Val} {a : List Val} {g : Val} {w1 : World W} (h : Apply E w f a g w1) :
    ∀ b v w2, a ≠ [] → b ≠ [] → Apply E w1 g b v w2 → Apply E w f (a ++ b) v w2 := by
  have exact_ : ∀ (w : World W) (f : Val) (a b : List Val) g w1 v w2, f.arity = some a.length → b ≠ [] →
      Apply E w f a g w1 → Apply E w1 g b v w2 → Apply E w f (a ++ b) v w2 := by
    intro w f a b g w1 v w2 hn hb h1 h2
    have := List.length_pos_iff.2 hb
    refine .more _ _ a.length _ g _ w1 _ hn (by simp; omega) ?_ ?_
    · simpa using h1
    · simpa using h2
  refine Apply.rec (motive_1 := fun _ _ _ _ _ _ => True) (motive_2 := fun _ _ _ _ _ _ => True)
    (motive_3 := fun w f a g w1 _ => ∀ b v w2, a ≠ [] → b ≠ [] → Apply E w1 g b v w2 → Apply E w f (a ++ b) v w2)
    ?_ ?_ ?_ ?_ ?_ ?_ ?_ ?_ ?_ ?_ ?_ ?_ ?_ ?_ ?_ ?_ ?_ ?_ ?_ ?_ ?_ h
  iterate 13 (intros; trivial)
  · intro w ps b env args v w1 hl he _ y v2 w2 hx hy h2
    exact exact_ w _ args y v w1 v2 w2 (by simp [Val.arity, hl]) hy (.clo _ _ _ _ _ _ _ hl he) h2
  · intro w p args v w1 hl he y v2 w2 hx hy h2
    exact exact_ w _ args y v w1 v2 w2 hl hy (.prim _ _ _ _ _ hl he) h2
  · intro w id n args v w1 hl he y v2 w2 hx hy h2
    exact exact_ w _ args y v w1 v2 w2 (by simp [Val.arity, hl]) hy (.native _ _ _ _ _ _ hl he) h2
  · intro w f n hn h0 y v w2 hx
    exact absurd rfl hx
  · intro w f n args hn h0 hl y v w2 hx hy h2
    cases h2 with
    | pap _ _ _ _ _ _ _ h => exact h
    | papNone => exact absurd rfl hy
    | none _ _ _ ha => cases ha
    | less _ _ _ _ ha => cases ha
    | more _ _ _ _ _ _ _ _ ha => cases ha
  · intro w f n args g v w1 w2 hn hl h1 h2 i1 i2 y v2 w3 hx hy h3
    have := i2 y v2 w3 (by simp; omega) hy h3
    refine .more _ _ n _ g _ w1 _ hn (by simp; omega) ?_ ?_
    · rwa [List.take_append_of_le_length (by omega)]
    · rwa [List.drop_append_of_le_length (by omega)]
  · intro w f got args v w1 hne h i y v2 w2 hx hy h2
    have := i y v2 w2 (by simp [hne]) hy h2
    exact .pap _ _ _ _ _ _ (by simp [hne]) (by simpa using this)
  · intro w f got y v2 w2 hx
    exact absurd rfl hx

/-- giving arguments in two portions is the same as giving them at once -/
theorem apply_append {w : World W} {f : Val} {a b : List Val} {v : Val} {w2 : World W} (ha : a ≠ []) (hb : b ≠ []) :
    Apply E w f (a ++ b) v w2 ↔ ∃ g w1, Apply E w f a g w1 ∧ Apply E w1 g b v w2 :=
  ⟨fun h => apply_split h a b rfl ha hb, fun ⟨_, _, h1, h2⟩ => apply_join h1 b v w2 ha hb h2⟩

end Spec.Lang
