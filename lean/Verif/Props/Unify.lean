import Verif.Model.Unify
/-
C56: unification in lib/ukanren.cora.
-/
open Spec
namespace Cora.Unify

variable {A : Type} [DecidableEq A]

theorem assp_some {u : Nat} {s : Subst A} {e : Nat × LTerm A} (h : assp u s = some e) : e ∈ s ∧ e.1 = u := by
  induction s with
  | nil => simp [assp] at h
  | cons a s ih =>
    simp only [assp] at h
    split at h
    · rename_i hu; simp at h; subst h; exact ⟨by simp, hu.symm⟩
    · obtain ⟨h1, h2⟩ := ih h; exact ⟨by simp [h1], h2⟩

theorem assp_none {u : Nat} {s : Subst A} (h : assp u s = none) : ∀ e ∈ s, e.1 ≠ u := by
  induction s with
  | nil => simp
  | cons a s ih =>
    simp only [assp] at h
    split at h
    · simp at h
    · rename_i hu
      intro e he
      rcases List.mem_cons.mp he with he | he
      · rw [he]; exact Ne.symm hu
      · exact ih h e he

theorem walk_inst {n : Nat} {u u' : LTerm A} {s : Subst A} (h : walk n u s = some u') {θ : Nat → LTerm A}
    (hθ : Solves θ s) : u.inst θ = u'.inst θ := by
  induction n generalizing u with
  | zero => simp [walk] at h
  | succ n ih =>
    cases u with
    | var x =>
      simp only [walk] at h
      cases ha : assp x s with
      | none => rw [ha] at h; simp at h; rw [h]
      | some e =>
        rw [ha] at h
        have := ih h
        obtain ⟨h1, h2⟩ := assp_some ha
        rw [← this, ← hθ e h1, h2]
        rfl
    | atom a => simp [walk] at h; rw [h]
    | cons a b => simp [walk] at h; rw [h]

theorem walk_var {n : Nat} {u : LTerm A} {s : Subst A} {x : Nat} (h : walk n u s = some (.var x)) :
    ∀ e ∈ s, e.1 ≠ x := by
  induction n generalizing u with
  | zero => simp [walk] at h
  | succ n ih =>
    cases u with
    | var y =>
      simp only [walk] at h
      cases ha : assp y s with
      | none => rw [ha] at h; simp at h; subst h; exact assp_none ha
      | some e => rw [ha] at h; exact ih h
    | atom a => simp [walk] at h
    | cons a b => simp [walk] at h

theorem solves_cons {θ : Nat → LTerm A} {x : Nat} {t : LTerm A} {s : Subst A} :
    Solves θ ((x, t) :: s) ↔ Solves θ s ∧ θ x = t.inst θ := by
  unfold Solves
  simp [and_comm]

/-- the main fact: what an answer of `unify` means -/
theorem unify_spec (n : Nat) : ∀ (u v : LTerm A) (s r : Subst A), unify n u v s = some r →
    (r ≠ [] → (∀ θ, Solves θ r ↔ Solves θ s ∧ u.inst θ = v.inst θ) ∧ s <:+ r ∧
      ((s.map (·.1)).Nodup → (r.map (·.1)).Nodup)) ∧
    (r = [] → s ≠ [] → ∀ θ, Solves θ s → u.inst θ ≠ v.inst θ) := by
  induction n with
  | zero => intro u v s r h; simp [unify] at h
  | succ n ih =>
    intro u v s r h
    rw [unify] at h
    cases hu : walk n u s with
    | none => rw [hu] at h; simp at h
    | some u' =>
      cases hv : walk n v s with
      | none => rw [hu, hv] at h; cases u' <;> simp at h
      | some v' =>
        have eu := fun θ (hθ : Solves θ s) => walk_inst hu hθ
        have ev := fun θ (hθ : Solves θ s) => walk_inst hv hθ
        -- binding a variable
        have bind : ∀ (x : Nat) (t : LTerm A), (∀ e ∈ s, e.1 ≠ x) →
            (∀ θ, Solves θ s → (u.inst θ = v.inst θ ↔ θ x = t.inst θ)) → r = (x, t) :: s →
            (r ≠ [] → (∀ θ, Solves θ r ↔ Solves θ s ∧ u.inst θ = v.inst θ) ∧ s <:+ r ∧
              ((s.map (·.1)).Nodup → (r.map (·.1)).Nodup)) ∧
            (r = [] → s ≠ [] → ∀ θ, Solves θ s → u.inst θ ≠ v.inst θ) := by
          intro x t hx ht hr
          subst hr
          refine ⟨fun _ => ⟨fun θ => ?_, List.suffix_cons _ _, fun hn => ?_⟩, fun h => by simp at h⟩
          · rw [solves_cons]
            constructor
            · intro ⟨a, b⟩; exact ⟨a, (ht θ a).mpr b⟩
            · intro ⟨a, b⟩; exact ⟨a, (ht θ a).mp b⟩
          · rw [List.map_cons, List.nodup_cons]
            refine ⟨?_, hn⟩
            intro hm
            obtain ⟨e, he, hex⟩ := List.mem_map.mp hm
            exact hx e he hex
        -- nothing to do
        have same : (∀ θ, Solves θ s → u.inst θ = v.inst θ) → r = s →
            (r ≠ [] → (∀ θ, Solves θ r ↔ Solves θ s ∧ u.inst θ = v.inst θ) ∧ s <:+ r ∧
              ((s.map (·.1)).Nodup → (r.map (·.1)).Nodup)) ∧
            (r = [] → s ≠ [] → ∀ θ, Solves θ s → u.inst θ ≠ v.inst θ) := by
          intro he hr
          subst hr
          exact ⟨fun _ => ⟨fun θ => ⟨fun a => ⟨a, he θ a⟩, fun a => a.1⟩, List.suffix_refl _, id⟩,
            fun h1 h2 => absurd h1 h2⟩
        -- failure
        have clash : (∀ θ, Solves θ s → u.inst θ ≠ v.inst θ) → r = [] →
            (r ≠ [] → (∀ θ, Solves θ r ↔ Solves θ s ∧ u.inst θ = v.inst θ) ∧ s <:+ r ∧
              ((s.map (·.1)).Nodup → (r.map (·.1)).Nodup)) ∧
            (r = [] → s ≠ [] → ∀ θ, Solves θ s → u.inst θ ≠ v.inst θ) :=
          fun hne hr => ⟨fun h => absurd hr h, fun _ _ => hne⟩
        cases u' with
        | var x =>
          have hx := walk_var hu
          cases v' with
          | var y =>
            rw [hu, hv] at h
            simp only [] at h
            split at h
            · rename_i hxy
              subst hxy
              exact same (fun θ hθ => by rw [eu θ hθ, ev θ hθ]) (Option.some.inj h).symm
            · exact bind x (.var y) hx (fun θ hθ => by rw [eu θ hθ, ev θ hθ]; rfl) (Option.some.inj h).symm
          | atom a =>
            rw [hu, hv] at h
            exact bind x (.atom a) hx (fun θ hθ => by rw [eu θ hθ, ev θ hθ]; rfl) (Option.some.inj h).symm
          | cons a b =>
            rw [hu, hv] at h
            exact bind x (.cons a b) hx (fun θ hθ => by rw [eu θ hθ, ev θ hθ]; rfl) (Option.some.inj h).symm
        | atom a =>
          cases v' with
          | var y =>
            rw [hu, hv] at h
            exact bind y (.atom a) (walk_var hv)
              (fun θ hθ => by rw [eu θ hθ, ev θ hθ]; exact eq_comm) (Option.some.inj h).symm
          | atom b =>
            rw [hu, hv] at h
            simp only [] at h
            split at h
            · rename_i hab
              exact same (fun θ hθ => by rw [eu θ hθ, ev θ hθ, hab]) (Option.some.inj h).symm
            · rename_i hab
              exact clash (fun θ hθ => by rw [eu θ hθ, ev θ hθ]; exact hab) (Option.some.inj h).symm
          | cons b c =>
            rw [hu, hv] at h
            simp only [] at h
            rw [if_neg (by simp)] at h
            exact clash (fun θ hθ => by rw [eu θ hθ, ev θ hθ]; simp [LTerm.inst]) (Option.some.inj h).symm
        | cons u1 u2 =>
          cases v' with
          | var y =>
            rw [hu, hv] at h
            exact bind y (.cons u1 u2) (walk_var hv)
              (fun θ hθ => by rw [eu θ hθ, ev θ hθ]; exact eq_comm) (Option.some.inj h).symm
          | atom b =>
            rw [hu, hv] at h
            simp only [] at h
            rw [if_neg (by simp)] at h
            exact clash (fun θ hθ => by rw [eu θ hθ, ev θ hθ]; simp [LTerm.inst]) (Option.some.inj h).symm
          | cons v1 v2 =>
            rw [hu, hv] at h
            simp only [] at h
            cases h1 : unify n u1 v1 s with
            | none => rw [h1] at h; simp at h
            | some s1 =>
              rw [h1] at h
              simp only [] at h
              obtain ⟨i1, i2⟩ := ih u1 v1 s s1 h1
              by_cases hs1 : s1 = []
              · rw [if_pos hs1] at h
                have hr := (Option.some.inj h).symm
                refine ⟨fun hne => absurd hr hne, fun _ hs θ hθ he => ?_⟩
                rw [eu θ hθ, ev θ hθ] at he
                injection he with he1 he2
                exact i2 hs1 hs θ hθ he1
              · rw [if_neg hs1] at h
                obtain ⟨j1, j2⟩ := ih u2 v2 s1 r h
                obtain ⟨k1, k2, k3⟩ := i1 hs1
                have both : ∀ θ, Solves θ s → (u.inst θ = v.inst θ ↔ u1.inst θ = v1.inst θ ∧ u2.inst θ = v2.inst θ) := by
                  intro θ hθ
                  rw [eu θ hθ, ev θ hθ]
                  simp [LTerm.inst]
                constructor
                · intro hr
                  obtain ⟨l1, l2, l3⟩ := j1 hr
                  refine ⟨fun θ => ?_, k2.trans l2, fun hn => l3 (k3 hn)⟩
                  rw [l1 θ, k1 θ]
                  constructor
                  · intro ⟨⟨a, b⟩, c⟩; exact ⟨a, (both θ a).mpr ⟨b, c⟩⟩
                  · intro ⟨a, b⟩
                    have := (both θ a).mp b
                    exact ⟨⟨a, this.1⟩, this.2⟩
                · intro hr hs θ hθ he
                  have := (both θ hθ).mp he
                  exact j2 hr hs1 θ ((k1 θ).mpr ⟨hθ, this.1⟩) this.2

/-- C56 (a): if `unify` answers a non-empty substitution, that substitution extends the given one, and its
solutions are exactly the solutions of the given one that make the two terms equal: it is a most general unifier.
For all terms, all substitutions (cyclic ones too, whenever `unify` ends). -/
theorem C56_most_general_partial (n : Nat) (u v : LTerm A) (s r : Subst A) (h : unify n u v s = some r) (hr : r ≠ []) :
    s <:+ r ∧ ∀ θ, Solves θ r ↔ Solves θ s ∧ u.inst θ = v.inst θ :=
  ⟨((unify_spec n u v s r h).1 hr).2.1, ((unify_spec n u v s r h).1 hr).1⟩

/-- C56 (b): if `unify` answers `()` for a non-empty substitution, the terms cannot be made equal by any solution
of that substitution. (For the empty substitution this is false, see below.) -/
theorem C56_failure_partial (n : Nat) (u v : LTerm A) (s : Subst A) (h : unify n u v s = some []) (hs : s ≠ []) :
    ¬ ∃ θ, Solves θ s ∧ u.inst θ = v.inst θ :=
  fun ⟨θ, h1, h2⟩ => (unify_spec n u v s [] h).2 rfl hs θ h1 h2

/-! ### resolving terms with the answer -/

theorem walk_mono {n : Nat} {u t : LTerm A} {s : Subst A} (h : walk n u s = some t) : walk (n + 1) u s = some t := by
  induction n generalizing u with
  | zero => simp [walk] at h
  | succ n ih =>
    cases u with
    | var x =>
      simp only [walk] at h ⊢
      cases ha : assp x s with
      | none => rw [ha] at h; exact h
      | some e => rw [ha] at h; exact ih h
    | atom a => simpa [walk] using h
    | cons a b => simpa [walk] using h

theorem walk_le {n m : Nat} (hnm : n ≤ m) {u t : LTerm A} {s : Subst A} (h : walk n u s = some t) :
    walk m u s = some t := by
  induction hnm with
  | refl => exact h
  | step _ ih => exact walk_mono ih

theorem walkStar_mono {n : Nat} {u t : LTerm A} {s : Subst A} (h : walkStar n u s = some t) :
    walkStar (n + 1) u s = some t := by
  induction n generalizing u t with
  | zero => simp [walkStar] at h
  | succ n ih =>
    rw [walkStar] at h ⊢
    cases hw : walk n u s with
    | none => rw [hw] at h; simp at h
    | some w =>
      rw [hw] at h
      rw [walk_mono hw]
      cases w with
      | var x => exact h
      | atom a => exact h
      | cons a b =>
        simp only [] at h ⊢
        cases ha : walkStar n a s with
        | none => rw [ha] at h; simp at h
        | some a' =>
          cases hb : walkStar n b s with
          | none => rw [ha, hb] at h; simp at h
          | some b' =>
            rw [ha, hb] at h
            rw [ih ha, ih hb]
            exact h

theorem walkStar_le {n m : Nat} (hnm : n ≤ m) {u t : LTerm A} {s : Subst A} (h : walkStar n u s = some t) :
    walkStar m u s = some t := by
  induction hnm with
  | refl => exact h
  | step _ ih => exact walkStar_mono ih

theorem walkStar_cons {n m : Nat} {a b a' b' : LTerm A} {s : Subst A} (ha : walkStar n a s = some a')
    (hb : walkStar m b s = some b') : walkStar (max n m + 1) (.cons a b) s = some (.cons a' b') := by
  have hn : n ≠ 0 := by rintro rfl; simp [walkStar] at ha
  rw [walkStar]
  have : walk (max n m) (.cons a b) s = some (.cons a b) := by
    have : max n m = (max n m - 1) + 1 := by omega
    rw [this]; rfl
  rw [this]
  simp only []
  rw [walkStar_le (Nat.le_max_left n m) ha, walkStar_le (Nat.le_max_right n m) hb]

/-- a bound variable is resolved as the term it is bound to -/
theorem walkStar_var {n x : Nat} {e : Nat × LTerm A} {t : LTerm A} {s : Subst A} (he : assp x s = some e)
    (h : walkStar n e.2 s = some t) : walkStar (n + 1) (.var x) s = some t := by
  cases n with
  | zero => simp [walkStar] at h
  | succ n =>
    rw [walkStar] at h ⊢
    rw [walk]
    rw [he]
    simp only []
    cases hw : walk n e.2 s with
    | none => rw [hw] at h; simp at h
    | some w =>
      rw [hw] at h
      cases w with
      | var y => exact h
      | atom a => exact h
      | cons a b =>
        simp only [] at h ⊢
        cases ha : walkStar n a s with
        | none => rw [ha] at h; simp at h
        | some a' =>
          cases hb : walkStar n b s with
          | none => rw [ha, hb] at h; simp at h
          | some b' =>
            rw [ha, hb] at h
            rw [walkStar_mono ha, walkStar_mono hb]
            exact h

/-- with an acyclic substitution every term can be resolved -/
theorem walkStar_total {s : Subst A} (hs : Acyclic s) (u : LTerm A) : ∃ n t, walkStar n u s = some t := by
  obtain ⟨rank, hr⟩ := hs
  suffices H : ∀ k, ∀ u : LTerm A, (∀ y ∈ u.vars, rank y < k) → ∃ n t, walkStar n u s = some t by
    have : ∃ k, ∀ y ∈ u.vars, rank y < k := by
      generalize u.vars = l
      induction l with
      | nil => exact ⟨0, by simp⟩
      | cons a l ih =>
        obtain ⟨k, hk⟩ := ih
        refine ⟨max k (rank a + 1), ?_⟩
        intro y hy
        rcases List.mem_cons.mp hy with hy | hy
        · subst hy; omega
        · have := hk y hy; omega
    obtain ⟨k, hk⟩ := this
    exact H k u hk
  intro k
  induction k with
  | zero =>
    intro u hu
    induction u with
    | var x => exact absurd (hu x (by simp [LTerm.vars])) (by omega)
    | atom a => exact ⟨2, _, rfl⟩
    | cons a b iha ihb =>
      obtain ⟨n, t, h1⟩ := iha (fun y hy => hu y (by simp [LTerm.vars, hy]))
      obtain ⟨m, t', h2⟩ := ihb (fun y hy => hu y (by simp [LTerm.vars, hy]))
      exact ⟨_, _, walkStar_cons h1 h2⟩
  | succ k ih =>
    intro u hu
    induction u with
    | var x =>
      cases ha : assp x s with
      | none => exact ⟨2, .var x, by simp [walkStar, walk, ha]⟩
      | some e =>
        obtain ⟨he, hx⟩ := assp_some ha
        obtain ⟨n, t, h⟩ := ih e.2 (fun y hy => by
          have h1 := hr e he y hy
          have h2 := hu x (by simp [LTerm.vars])
          rw [hx] at h1
          omega)
        exact ⟨n + 1, t, walkStar_var ha h⟩
    | atom a => exact ⟨2, _, rfl⟩
    | cons a b iha ihb =>
      obtain ⟨n, t, h1⟩ := iha (fun y hy => hu y (by simp [LTerm.vars, hy]))
      obtain ⟨m, t', h2⟩ := ihb (fun y hy => hu y (by simp [LTerm.vars, hy]))
      exact ⟨_, _, walkStar_cons h1 h2⟩

theorem walkStar_unique {n m : Nat} {u t t' : LTerm A} {s : Subst A} (h : walkStar n u s = some t)
    (h' : walkStar m u s = some t') : t = t' := by
  have a := walkStar_le (Nat.le_max_left n m) h
  have b := walkStar_le (Nat.le_max_right n m) h'
  rw [a] at b
  exact Option.some.inj b

theorem assp_of_nodup {s : Subst A} (hn : (s.map (·.1)).Nodup) {e : Nat × LTerm A} (he : e ∈ s) :
    assp e.1 s = some e := by
  induction s with
  | nil => simp at he
  | cons a s ih =>
    rw [List.map_cons, List.nodup_cons] at hn
    simp only [assp]
    rcases List.mem_cons.mp he with he | he
    · subst he; simp
    · have : e.1 ≠ a.1 := fun h => hn.1 (h ▸ List.mem_map.mpr ⟨e, he, rfl⟩)
      rw [if_neg this]
      exact ih hn.2 he

open Classical in
/-- the solution an acyclic substitution stands for -/
noncomputable def sol (s : Subst A) (x : Nat) : LTerm A :=
  if h : ∃ t, ∃ n, walkStar n (.var x) s = some t then h.choose else .var x

theorem sol_spec {s : Subst A} (hs : Acyclic s) (u : LTerm A) : ∃ n, walkStar n u s = some (u.inst (sol s)) := by
  induction u with
  | var x =>
    obtain ⟨n, t, h⟩ := walkStar_total hs (.var x)
    have hex : ∃ t, ∃ n, walkStar n (.var x) s = some t := ⟨t, n, h⟩
    have : sol s x = hex.choose := dif_pos hex
    obtain ⟨m, hm⟩ := hex.choose_spec
    refine ⟨m, ?_⟩
    show _ = some (sol s x)
    rw [this]
    exact hm
  | atom a => exact ⟨2, rfl⟩
  | cons a b iha ihb =>
    obtain ⟨n, h1⟩ := iha
    obtain ⟨m, h2⟩ := ihb
    exact ⟨_, walkStar_cons h1 h2⟩

theorem sol_solves {s : Subst A} (hs : Acyclic s) (hn : (s.map (·.1)).Nodup) : Solves (sol s) s := by
  intro e he
  obtain ⟨n, h1⟩ := sol_spec hs e.2
  obtain ⟨m, h2⟩ := sol_spec hs (.var e.1)
  exact walkStar_unique h2 (walkStar_var (assp_of_nodup hn he) h1)

/-- the keys are distinct, and a variable bound to a variable is bound to one that had no binding then -/
def Ordered : Subst A → Prop
  | [] => True
  | (x, t) :: s => (∀ e ∈ s, e.1 ≠ x) ∧ (∀ y, t = .var y → y ≠ x ∧ ∀ e ∈ s, e.1 ≠ y) ∧ Ordered s

theorem Ordered.nodup {s : Subst A} (h : Ordered s) : (s.map (·.1)).Nodup := by
  induction s with
  | nil => simp
  | cons a s ih =>
    obtain ⟨x, t⟩ := a
    obtain ⟨h1, _, h3⟩ := h
    rw [List.map_cons, List.nodup_cons]
    refine ⟨?_, ih h3⟩
    intro hm
    obtain ⟨e, he, hex⟩ := List.mem_map.mp hm
    exact h1 e he hex

theorem unify_ordered (n : Nat) : ∀ (u v : LTerm A) (s r : Subst A), Ordered s → unify n u v s = some r → Ordered r := by
  induction n with
  | zero => intro u v s r _ h; simp [unify] at h
  | succ n ih =>
    intro u v s r hs h
    rw [unify] at h
    cases hu : walk n u s with
    | none => rw [hu] at h; simp at h
    | some u' =>
      cases hv : walk n v s with
      | none => rw [hu, hv] at h; cases u' <;> simp at h
      | some v' =>
        rw [hu, hv] at h
        cases u' with
        | var x =>
          cases v' with
          | var y =>
            simp only [] at h
            split at h
            · rw [← Option.some.inj h]; exact hs
            · rename_i hxy
              rw [← Option.some.inj h]
              refine ⟨walk_var hu, ?_, hs⟩
              intro z hz
              injection hz with hz
              subst hz
              exact ⟨Ne.symm hxy, walk_var hv⟩
          | atom a => rw [← Option.some.inj h]; exact ⟨walk_var hu, fun y hy => by simp at hy, hs⟩
          | cons a b => rw [← Option.some.inj h]; exact ⟨walk_var hu, fun y hy => by simp at hy, hs⟩
        | atom a =>
          cases v' with
          | var y => rw [← Option.some.inj h]; exact ⟨walk_var hv, fun y hy => by simp at hy, hs⟩
          | atom b =>
            simp only [] at h
            split at h
            · rw [← Option.some.inj h]; exact hs
            · rw [← Option.some.inj h]; trivial
          | cons b c =>
            simp only [] at h
            split at h
            · rw [← Option.some.inj h]; exact hs
            · rw [← Option.some.inj h]; trivial
        | cons u1 u2 =>
          cases v' with
          | var y => rw [← Option.some.inj h]; exact ⟨walk_var hv, fun y hy => by simp at hy, hs⟩
          | atom b =>
            simp only [] at h
            split at h
            · rw [← Option.some.inj h]; exact hs
            · rw [← Option.some.inj h]; trivial
          | cons v1 v2 =>
            simp only [] at h
            cases h1 : unify n u1 v1 s with
            | none => rw [h1] at h; simp at h
            | some s1 =>
              rw [h1] at h
              simp only [] at h
              split at h
              · rw [← Option.some.inj h]; trivial
              · exact ih _ _ _ _ (ih _ _ _ _ hs h1) h

/-- the number of nodes of a term -/
def size : LTerm A → Nat
  | .var _ => 1
  | .atom _ => 1
  | .cons a b => size a + size b + 1

theorem size_pos (t : LTerm A) : 0 < size t := by cases t <;> simp [size]

theorem size_inst {θ : Nat → LTerm A} {t : LTerm A} {y : Nat} (hy : y ∈ t.vars) : size (θ y) ≤ size (t.inst θ) := by
  induction t with
  | var x => simp [LTerm.vars] at hy; subst hy; exact Nat.le_refl _
  | atom a => simp [LTerm.vars] at hy
  | cons a b iha ihb =>
    simp only [LTerm.vars, List.mem_append] at hy
    simp only [LTerm.inst, size]
    rcases hy with hy | hy
    · have := iha hy; omega
    · have := ihb hy; omega

theorem size_inst_lt {θ : Nat → LTerm A} {t : LTerm A} {y : Nat} (hy : y ∈ t.vars) (hv : t ≠ .var y) :
    size (θ y) < size (t.inst θ) := by
  cases t with
  | var x => simp [LTerm.vars] at hy; subst hy; exact absurd rfl hv
  | atom a => simp [LTerm.vars] at hy
  | cons a b =>
    simp only [LTerm.vars, List.mem_append] at hy
    simp only [LTerm.inst, size]
    rcases hy with hy | hy
    · have := size_inst (θ := θ) hy; omega
    · have := size_inst (θ := θ) hy; omega

/-- how far from the end of the list the binding of `x` is found; 0 if there is none -/
def pos (x : Nat) : Subst A → Nat
  | [] => 0
  | e :: s => if e.1 = x then 1 else if pos x s = 0 then 0 else pos x s + 1

theorem pos_none {x : Nat} {s : Subst A} (h : ∀ e ∈ s, e.1 ≠ x) : pos x s = 0 := by
  induction s with
  | nil => rfl
  | cons a s ih =>
    simp [pos, h a (by simp), ih (fun e he => h e (by simp [he]))]

theorem pos_le (x : Nat) (s : Subst A) : pos x s ≤ s.length := by
  induction s with
  | nil => simp [pos]
  | cons a s ih => simp only [pos, List.length_cons]; split; omega; split <;> omega

theorem pos_mem {s : Subst A} {e : Nat × LTerm A} (he : e ∈ s) : pos e.1 s ≠ 0 := by
  induction s with
  | nil => simp at he
  | cons a s ih =>
    simp only [pos]
    split
    · simp
    · rename_i h
      rcases List.mem_cons.mp he with he | he
      · subst he; exact absurd rfl h
      · rw [if_neg (ih he)]; simp

theorem pos_var {s : Subst A} (h : Ordered s) {x y : Nat} (he : (x, LTerm.var y) ∈ s) : pos y s < pos x s := by
  induction s with
  | nil => simp at he
  | cons a s ih =>
    obtain ⟨z, t⟩ := a
    obtain ⟨h1, h2, h3⟩ := h
    rcases List.mem_cons.mp he with he | he
    · injection he with he1 he2
      subst he1
      obtain ⟨h4, h5⟩ := h2 y he2.symm
      simp [pos, Ne.symm h4, pos_none h5]
    · have := ih h3 he
      have hz : z ≠ x := fun hzx => h1 _ he hzx.symm
      have hx : pos x ((z, t) :: s) = pos x s + 1 := by
        simp only [pos, hz, if_false]
        exact if_neg (by omega)
      rw [hx]
      simp only [pos]
      split
      · omega
      · split <;> omega

/-- an ordered substitution with a (finite) solution has no cycles -/
theorem acyclic_of_solves {s : Subst A} (h : Ordered s) {θ : Nat → LTerm A} (hθ : Solves θ s) : Acyclic s := by
  refine ⟨fun x => size (θ x) * (s.length + 1) + pos x s, ?_⟩
  intro e he y hy
  have hx := hθ e he
  have hp := pos_le y s
  show size (θ y) * (s.length + 1) + pos y s < size (θ e.1) * (s.length + 1) + pos e.1 s
  by_cases hv : e.2 = .var y
  · have : pos y s < pos e.1 s := pos_var h (by rw [← hv]; exact he)
    rw [hx, hv]
    show size (θ y) * (s.length + 1) + pos y s < size (θ y) * (s.length + 1) + pos e.1 s
    omega
  · have hlt := size_inst_lt (θ := θ) hy hv
    rw [← hx] at hlt
    have : (size (θ y) + 1) * (s.length + 1) ≤ size (θ e.1) * (s.length + 1) := Nat.mul_le_mul_right _ hlt
    rw [Nat.add_mul] at this
    omega

/-- the substitutions a program can come to hold: the empty one, and every answer of `unify` -/
inductive Built : Subst A → Prop where
  | empty : Built []
  | step (n : Nat) (u v : LTerm A) (s r : Subst A) : Built s → unify n u v s = some r → Built r

theorem Built.ordered {s : Subst A} (h : Built s) : Ordered s := by
  induction h with
  | empty => trivial
  | step n u v s r _ h ih => exact unify_ordered n u v s r ih h

/-- C56 (c): for terms that have a unifier, a non-empty answer has no cycles, resolving either term with it (`walk*`,
what `reify` does) ends, and both give the same term. For all terms and every substitution a program can hold. -/
theorem C56_unifier_partial (n : Nat) (u v : LTerm A) (s r : Subst A) (hs : Built s) (h : unify n u v s = some r)
    (hr : r ≠ []) (hu : ∃ θ, Solves θ s ∧ u.inst θ = v.inst θ) :
    Acyclic r ∧ ∃ t N, ∀ m ≥ N, walkStar m u r = some t ∧ walkStar m v r = some t := by
  obtain ⟨h1, h2, h3⟩ := (unify_spec n u v s r h).1 hr
  have ho := unify_ordered n u v s r hs.ordered h
  obtain ⟨θ, hθ⟩ := hu
  have hc : Acyclic r := acyclic_of_solves ho ((h1 θ).mpr hθ)
  refine ⟨hc, ?_⟩
  have he := ((h1 (sol r)).mp (sol_solves hc ho.nodup)).2
  obtain ⟨a, ha⟩ := sol_spec hc u
  obtain ⟨b, hb⟩ := sol_spec hc v
  rw [← he] at hb
  exact ⟨u.inst (sol r), max a b, fun m hm => ⟨walkStar_le (by omega) ha, walkStar_le (by omega) hb⟩⟩

/-! ### `unify` ends on unifiable terms -/

theorem walk_total {s : Subst A} (hs : Acyclic s) (u : LTerm A) : ∃ n t, walk n u s = some t := by
  obtain ⟨n, t, h⟩ := walkStar_total hs u
  cases n with
  | zero => simp [walkStar] at h
  | succ n =>
    rw [walkStar] at h
    cases hw : walk n u s with
    | none => rw [hw] at h; simp at h
    | some w => exact ⟨n, w, hw⟩

theorem unify_mono {n : Nat} : ∀ {u v : LTerm A} {s r : Subst A}, unify n u v s = some r →
    unify (n + 1) u v s = some r := by
  induction n with
  | zero => intro u v s r h; simp [unify] at h
  | succ n ih =>
    intro u v s r h
    rw [unify] at h
    cases hu : walk n u s with
    | none => rw [hu] at h; simp at h
    | some u' =>
      cases hv : walk n v s with
      | none => rw [hu, hv] at h; cases u' <;> simp at h
      | some v' =>
        rw [unify, walk_mono hu, walk_mono hv]
        rw [hu, hv] at h
        cases u' with
        | var x => cases v' <;> exact h
        | atom a => cases v' <;> exact h
        | cons u1 u2 =>
          cases v' with
          | var y => exact h
          | atom b => exact h
          | cons v1 v2 =>
            simp only [] at h ⊢
            cases h1 : unify n u1 v1 s with
            | none => rw [h1] at h; simp at h
            | some s1 =>
              rw [h1] at h
              rw [ih h1]
              simp only [] at h ⊢
              split
              · rename_i hn; rw [if_pos hn] at h; exact h
              · rename_i hn; rw [if_neg hn] at h; exact ih h

theorem unify_le {n m : Nat} (hnm : n ≤ m) {u v : LTerm A} {s r : Subst A} (h : unify n u v s = some r) :
    unify m u v s = some r := by
  induction hnm with
  | refl => exact h
  | step _ ih => exact unify_mono ih

theorem unify_ends (k : Nat) : ∀ (u v : LTerm A) (s : Subst A) (θ : Nat → LTerm A), Ordered s → Solves θ s →
    u.inst θ = v.inst θ → size (u.inst θ) ≤ k → ∃ n r, unify n u v s = some r := by
  induction k with
  | zero => intro u v s θ _ _ _ hk; have := size_pos (u.inst θ); omega
  | succ k ih =>
    intro u v s θ ho hθ he hk
    have hc := acyclic_of_solves ho hθ
    obtain ⟨n, u', hu⟩ := walk_total hc u
    obtain ⟨m, v', hv⟩ := walk_total hc v
    have eu := walk_inst hu hθ
    have ev := walk_inst hv hθ
    have hu' := walk_le (Nat.le_max_left n m) hu
    have hv' := walk_le (Nat.le_max_right n m) hv
    by_cases hcc : ∃ u1 u2 v1 v2, u' = .cons u1 u2 ∧ v' = .cons v1 v2
    · obtain ⟨u1, u2, v1, v2, rfl, rfl⟩ := hcc
      have hsz : size (u1.inst θ) + size (u2.inst θ) + 1 ≤ k + 1 := by
        rw [eu] at hk; exact hk
      have heq : LTerm.cons (u1.inst θ) (u2.inst θ) = .cons (v1.inst θ) (v2.inst θ) := by
        rw [eu, ev] at he; exact he
      injection heq with e1 e2
      obtain ⟨a, s1, ha⟩ := ih u1 v1 s θ ho hθ e1 (by have := size_pos (u2.inst θ); omega)
      by_cases hs1 : s1 = []
      · refine ⟨max (max n m) a + 1, [], ?_⟩
        rw [unify, walk_le (Nat.le_max_left _ a) hu', walk_le (Nat.le_max_left _ a) hv']
        simp only []
        rw [unify_le (Nat.le_max_right _ a) ha]
        simp [hs1]
      · have hθ1 : Solves θ s1 := ((((unify_spec a u1 v1 s s1 ha).1 hs1).1) θ).mpr ⟨hθ, e1⟩
        obtain ⟨b, r, hb⟩ := ih u2 v2 s1 θ (unify_ordered a u1 v1 s s1 ho ha) hθ1 e2 (by have := size_pos (u1.inst θ); omega)
        refine ⟨max (max n m) (max a b) + 1, r, ?_⟩
        rw [unify, walk_le (Nat.le_max_left _ _) hu', walk_le (Nat.le_max_left _ _) hv']
        simp only []
        rw [unify_le (by omega) ha]
        simp only []
        rw [if_neg hs1]
        exact unify_le (by omega) hb
    · have : ∃ r, unify (max n m + 1) u v s = some r := by
        rw [unify, hu', hv']
        cases u' with
        | var x =>
          cases v' with
          | var y => simp only []; split <;> exact ⟨_, rfl⟩
          | atom a => exact ⟨_, rfl⟩
          | cons a b => exact ⟨_, rfl⟩
        | atom a =>
          cases v' with
          | var y => exact ⟨_, rfl⟩
          | atom b => simp only []; split <;> exact ⟨_, rfl⟩
          | cons b c => simp only []; split <;> exact ⟨_, rfl⟩
        | cons a b =>
          cases v' with
          | var y => exact ⟨_, rfl⟩
          | atom b => simp only []; split <;> exact ⟨_, rfl⟩
          | cons c d => exact absurd ⟨_, _, _, _, rfl, rfl⟩ hcc
      obtain ⟨r, hr⟩ := this
      exact ⟨_, r, hr⟩

/-- C56 (d): if the terms have a unifier under the substitution, `unify` ends, and (unless the given substitution is
the empty one) does not answer failure. -/
theorem C56_complete_partial (u v : LTerm A) (s : Subst A) (hs : Built s) (hu : ∃ θ, Solves θ s ∧ u.inst θ = v.inst θ) :
    ∃ r N, (∀ n ≥ N, unify n u v s = some r) ∧ (s ≠ [] → r ≠ []) := by
  obtain ⟨θ, hθ, he⟩ := hu
  obtain ⟨N, r, h⟩ := unify_ends _ u v s θ hs.ordered hθ he (Nat.le_refl _)
  refine ⟨r, N, fun n hn => unify_le hn h, fun hne hr => ?_⟩
  subst hr
  exact C56_failure_partial N u v s h hne ⟨θ, hθ, he⟩

/-- C56 is false: there is no occurs check. Unifying `x` with `(x . a)` succeeds, although no finite term solves the
answer, and resolving `x` never ends. -/
theorem C56_no_occurs_check (a : A) (x : Nat) :
    (∀ n ≥ 2, unify n (.var x) (.cons (.var x) (.atom a)) [] = some [(x, .cons (.var x) (.atom a))]) ∧
    (¬ ∃ θ, Solves θ [(x, LTerm.cons (.var x) (.atom a))]) ∧
    (∀ n, walkStar n (.var x) [(x, LTerm.cons (.var x) (.atom a))] = none) := by
  refine ⟨?_, ?_, ?_⟩
  · intro n hn
    obtain ⟨k, rfl⟩ : ∃ k, n = k + 2 := ⟨n - 2, by omega⟩
    simp [unify, walk, assp]
  · rintro ⟨θ, h⟩
    have h := h (x, .cons (.var x) (.atom a)) (by simp)
    simp only [LTerm.inst] at h
    have : ∀ t u : LTerm A, t ≠ .cons t u := by
      intro t
      induction t with
      | var => intro u h; cases h
      | atom => intro u h; cases h
      | cons p q ihp ihq => intro u h; injection h with h1 h2; exact ihp _ h1
    exact this _ _ h
  · intro n
    induction n using Nat.strongRecOn with
    | _ n ih =>
      cases n with
      | zero => rfl
      | succ n =>
        rw [walkStar]
        cases n with
        | zero => rfl
        | succ n =>
          rw [walk]
          simp only [assp, if_true]
          cases n with
          | zero => rfl
          | succ n =>
            simp only [walk]
            rw [ih (n + 2) (by omega)]

/-- C56 is false for the empty substitution: `()` means both "no constraint needed" and "failure", so terms that
are unifiable are refused. Here `(a . x)` and `(a . b)`. -/
theorem C56_refuses_unifiable (a b : A) (x : Nat) :
    (∀ n ≥ 3, unify n (.cons (.atom a) (.var x)) (.cons (.atom a) (.atom b)) [] = some []) ∧
    ∃ θ : Nat → LTerm A, (LTerm.cons (.atom a) (.var x)).inst θ = (LTerm.cons (.atom a) (.atom b)).inst θ := by
  refine ⟨?_, fun _ => .atom b, rfl⟩
  intro n hn
  obtain ⟨k, rfl⟩ : ∃ k, n = k + 3 := ⟨n - 3, by omega⟩
  simp [unify, walk]

/-- and two identical terms always look like a failure -/
theorem C56_identical_atoms_fail (a : A) (n : Nat) (hn : 2 ≤ n) : unify n (.atom a) (.atom a) [] = some [] := by
  obtain ⟨k, rfl⟩ : ∃ k, n = k + 2 := ⟨n - 2, by omega⟩
  simp [unify, walk]

/-- a case that meets the hypotheses of the positive theorems: `(x . y)` with `(1 . (x . 2))` -/
example : unify 9 (.cons (.var 0) (.var 1)) (.cons (.atom 1) (.cons (.var 0) (.atom 2))) [] =
      some [(1, .cons (.var 0) (.atom 2)), (0, (.atom 1 : LTerm Nat))] ∧
    ∃ θ, Solves θ [] ∧ (LTerm.cons (.var 0) (.var 1)).inst θ =
      (LTerm.cons (.atom 1) (.cons (.var 0) (.atom 2)) : LTerm Nat).inst θ :=
  ⟨by decide, fun n => if n = 0 then .atom 1 else .cons (.atom 1) (.atom 2), by simp [Solves], by simp [LTerm.inst]⟩

end Cora.Unify
