import Verif.Model.Reify
import Verif.Props.Unify
/-
C91: answers of logic programs are shown with their free variables numbered.
-/
open Spec Spec.Reify
namespace Cora.Unify

variable {A : Type} [DecidableEq A]

/-! ### resolved terms -/

theorem walkStar_free {n : Nat} : ∀ {u t : LTerm A} {s : Subst A}, walkStar n u s = some t → ∀ y ∈ t.vars, ∀ e ∈ s, e.1 ≠ y := by
  induction n with
  | zero => intro u t s h; simp [walkStar] at h
  | succ n ih =>
    intro u t s h
    rw [walkStar] at h
    cases hw : walk n u s with
    | none => rw [hw] at h; simp at h
    | some w =>
      rw [hw] at h
      cases w with
      | var x =>
        simp only [Option.some.injEq] at h
        subst h
        intro y hy
        simp only [LTerm.vars, List.mem_singleton] at hy
        subst hy
        exact walk_var hw
      | atom a => simp only [Option.some.injEq] at h; subst h; intro y hy; simp [LTerm.vars] at hy
      | cons a b =>
        simp only [] at h
        cases ha : walkStar n a s with
        | none => rw [ha] at h; simp at h
        | some a' =>
          cases hb : walkStar n b s with
          | none => rw [ha, hb] at h; simp at h
          | some b' =>
            rw [ha, hb] at h
            simp only [Option.some.injEq] at h
            subst h
            intro y hy
            rcases List.mem_append.mp hy with hy | hy
            · exact ih ha y hy
            · exact ih hb y hy

theorem walkStar_inst {n : Nat} : ∀ {u t : LTerm A} {s : Subst A}, walkStar n u s = some t → ∀ θ : Nat → LTerm A, Solves θ s →
    u.inst θ = t.inst θ := by
  induction n with
  | zero => intro u t s h; simp [walkStar] at h
  | succ n ih =>
    intro u t s h θ hθ
    rw [walkStar] at h
    cases hw : walk n u s with
    | none => rw [hw] at h; simp at h
    | some w =>
      rw [hw] at h
      rw [walk_inst hw hθ]
      cases w with
      | var x => simp only [Option.some.injEq] at h; rw [h]
      | atom a => simp only [Option.some.injEq] at h; rw [h]
      | cons a b =>
        simp only [] at h
        cases ha : walkStar n a s with
        | none => rw [ha] at h; simp at h
        | some a' =>
          cases hb : walkStar n b s with
          | none => rw [ha, hb] at h; simp at h
          | some b' =>
            rw [ha, hb] at h
            simp only [Option.some.injEq] at h
            subst h
            simp only [LTerm.inst, ih ha θ hθ, ih hb θ hθ]

theorem walkStar_answer {n x : Nat} {t : LTerm A} {s : Subst A} (h : walkStar n (.var x) s = some t) : Answer s x t :=
  ⟨fun θ hθ => walkStar_inst h θ hθ, walkStar_free h⟩

theorem inst_id (t : LTerm A) {θ : Nat → LTerm A} (h : ∀ y ∈ t.vars, θ y = .var y) : t.inst θ = t := by
  induction t with
  | var x => exact h x (by simp [LTerm.vars])
  | atom a => rfl
  | cons a b iha ihb =>
    rw [LTerm.inst, iha fun y hy => h y (by simp [LTerm.vars, hy]), ihb fun y hy => h y (by simp [LTerm.vars, hy])]

theorem sol_free {s : Subst A} {y : Nat} (h : ∀ e ∈ s, e.1 ≠ y) : sol s y = .var y := by
  have ha : assp y s = none := by
    induction s with
    | nil => rfl
    | cons e s ih =>
      simp only [assp]
      rw [if_neg fun he => h e (by simp) he.symm]
      exact ih fun e he => h e (by simp [he])
  have h2 : walkStar 2 (.var y) s = some (.var y) := by simp [walkStar, walk, ha]
  have hex : ∃ t, ∃ n, walkStar n (.var y) s = some t := ⟨_, _, h2⟩
  have : sol s y = hex.choose := dif_pos hex
  obtain ⟨m, hm⟩ := hex.choose_spec
  rw [this]
  exact walkStar_unique hm h2

/-- there is one answer -/
theorem answer_unique {s : Subst A} (hs : Acyclic s) (hn : (s.map (·.1)).Nodup) {x : Nat} {t t' : LTerm A} (h : Answer s x t)
    (h' : Answer s x t') : t = t' := by
  have e := h.says _ (sol_solves hs hn)
  have e' := h'.says _ (sol_solves hs hn)
  rw [inst_id t fun y hy => sol_free (h.free y hy)] at e
  rw [inst_id t' fun y hy => sol_free (h'.free y hy)] at e'
  rw [← e, ← e']

/-! ### numbering -/

/-- add an element at the end if it is new -/
def addTo (acc : List Nat) (x : Nat) : List Nat := if x ∈ acc then acc else acc ++ [x]

/-- the variables in the list, in order, bound to their numbers; the last one first -/
def table (name : Nat → A) : List Nat → Nat → Subst A
  | [], _ => []
  | x :: r, k => table name r (k + 1) ++ [(x, .atom (name k))]

theorem table_length (name : Nat → A) : ∀ (l : List Nat) (k : Nat), (table name l k).length = l.length
  | [], _ => rfl
  | x :: r, k => by simp [table, table_length name r]

theorem table_snoc (name : Nat → A) (x : Nat) : ∀ (l : List Nat) (k : Nat),
    table name (l ++ [x]) k = (x, .atom (name (k + l.length))) :: table name l k
  | [], k => by simp [table]
  | y :: l, k => by simp [table, table_snoc name x l, Nat.add_assoc, Nat.add_comm 1]

theorem assp_append {x : Nat} : ∀ (s s' : Subst A), assp x (s ++ s') = (assp x s).or (assp x s')
  | [], s' => rfl
  | e :: s, s' => by
    simp only [List.cons_append, assp]
    split
    · rfl
    · exact assp_append s s'

theorem assp_table (name : Nat → A) (x : Nat) : ∀ (l : List Nat) (k : Nat), l.Nodup →
    assp x (table name l k) = if x ∈ l then some (x, .atom (name (k + l.idxOf x))) else none
  | [], _, _ => rfl
  | y :: l, k, h => by
    rw [List.nodup_cons] at h
    rw [table, assp_append, assp_table name x l _ h.2]
    by_cases hx : x = y
    · subst hx; simp [h.1, assp]
    · by_cases hm : x ∈ l
      · have : y ≠ x := fun e => hx e.symm
        simp [hm, List.idxOf_cons, beq_false_of_ne this, Nat.add_assoc, Nat.add_comm 1]
      · simp [hm, hx, assp]

def depth : LTerm A → Nat
  | .cons a b => depth a + depth b + 1
  | _ => 0

theorem nodup_addTo {l : List Nat} (h : l.Nodup) (x : Nat) : (addTo l x).Nodup := by
  unfold addTo
  split
  · exact h
  · rename_i hx
    rw [List.nodup_append]
    exact ⟨h, by simp, fun a ha b hb => by simp only [List.mem_singleton] at hb; subst hb; rintro rfl; exact hx ha⟩

theorem nodup_foldl : ∀ (m l : List Nat), l.Nodup → (m.foldl addTo l).Nodup
  | [], _, h => h
  | x :: m, _, h => nodup_foldl m _ (nodup_addTo h x)

theorem reifyS_table {name : Nat → Option A} {nm : Nat → A} (hname : ∀ n, name n = some (nm n)) : ∀ (t : LTerm A) (n : Nat), depth t + 3 ≤ n →
    ∀ l : List Nat, l.Nodup → reifyS name n t (table nm l 0) = some (table nm (t.vars.foldl addTo l) 0)
  | .var x, n, hn, l, hl => by
    obtain ⟨n, rfl⟩ : ∃ m, n = m + 3 := ⟨n - 3, by simp only [depth] at hn; omega⟩
    rw [reifyS]
    have ha := assp_table nm x l 0 hl
    by_cases hx : x ∈ l
    · rw [if_pos hx] at ha
      simp [walk, ha, LTerm.vars, addTo, hx]
    · rw [if_neg hx] at ha
      simp [walk, ha, LTerm.vars, addTo, hx, hname, table_snoc, table_length]
  | .atom a, n, hn, l, _ => by
    obtain ⟨n, rfl⟩ : ∃ m, n = m + 3 := ⟨n - 3, by simp only [depth] at hn; omega⟩
    simp [reifyS, walk, LTerm.vars]
  | .cons a b, n, hn, l, hl => by
    obtain ⟨n, rfl⟩ : ∃ m, n = m + 1 := ⟨n - 1, by simp only [depth] at hn; omega⟩
    simp only [depth] at hn
    have hw : walk n (.cons a b) (table nm l 0) = some (.cons a b) := by
      obtain ⟨m, rfl⟩ : ∃ m, n = m + 1 := ⟨n - 1, by omega⟩
      rfl
    rw [reifyS, hw]
    simp only [reifyS_table hname a n (by omega) l hl, LTerm.vars, List.foldl_append]
    exact reifyS_table hname b n (by omega) _ (nodup_foldl _ _ hl)

theorem walkStar_table (nm : Nat → A) {l : List Nat} (hl : l.Nodup) : ∀ (t : LTerm A) (n : Nat), depth t + 3 ≤ n → (∀ x ∈ t.vars, x ∈ l) →
    walkStar n t (table nm l 0) = some (t.inst fun x => .atom (nm (l.idxOf x)))
  | .var x, n, hn, hx => by
    obtain ⟨n, rfl⟩ : ∃ m, n = m + 3 := ⟨n - 3, by simp only [depth] at hn; omega⟩
    have ha := assp_table nm x l 0 hl
    rw [if_pos (hx x (by simp [LTerm.vars]))] at ha
    simp [walkStar, walk, ha, LTerm.inst]
  | .atom a, n, hn, _ => by
    obtain ⟨n, rfl⟩ : ∃ m, n = m + 3 := ⟨n - 3, by simp only [depth] at hn; omega⟩
    simp [walkStar, walk, LTerm.inst]
  | .cons a b, n, hn, hx => by
    obtain ⟨n, rfl⟩ : ∃ m, n = m + 1 := ⟨n - 1, by simp only [depth] at hn; omega⟩
    simp only [depth] at hn
    have hw : walk n (.cons a b) (table nm l 0) = some (.cons a b) := by
      obtain ⟨m, rfl⟩ : ∃ m, n = m + 1 := ⟨n - 1, by omega⟩
      rfl
    rw [walkStar, hw]
    simp only [walkStar_table nm hl a n (by omega) fun x h => hx x (by simp [LTerm.vars, h]),
      walkStar_table nm hl b n (by omega) fun x h => hx x (by simp [LTerm.vars, h]), LTerm.inst]

theorem mem_addTo {l : List Nat} {x y : Nat} : y ∈ addTo l x ↔ y ∈ l ∨ y = x := by
  unfold addTo
  split
  · rename_i h
    exact ⟨.inl, fun h' => h'.elim id fun e => e ▸ h⟩
  · simp

theorem mem_foldl {y : Nat} : ∀ (m l : List Nat), y ∈ m.foldl addTo l ↔ y ∈ l ∨ y ∈ m
  | [], l => by simp
  | x :: m, l => by rw [List.foldl_cons, mem_foldl m, mem_addTo, List.mem_cons, or_assoc]

theorem firsts_eq (l : List Nat) : firsts l = l.foldl addTo [] := rfl

theorem mem_firsts {y : Nat} {l : List Nat} : y ∈ firsts l ↔ y ∈ l := by rw [firsts_eq, mem_foldl]; simp

theorem nodup_firsts (l : List Nat) : (firsts l).Nodup := nodup_foldl l [] List.nodup_nil

/-- C91 (a), for a `reify-name` that gives the names. From every substitution without cycles (C56: all that unification of unifiable
terms builds): there is an answer for the first variable, there is only one, and it is shown with its free variables numbered in the
order of their first occurrence. -/
theorem C91_numbered (name : Nat → A) (s : Subst A) (hs : Acyclic s) (hn : (s.map (·.1)).Nodup) :
    ∃ t, (∀ u, Answer s 0 u ↔ u = t) ∧ ∃ N, ∀ n, N ≤ n → reifyState (fun k => some (name k)) n s = some (shown name t) := by
  obtain ⟨n, t, h⟩ := walkStar_total hs (.var 0)
  have ha := walkStar_answer h
  refine ⟨t, fun u => ⟨fun hu => answer_unique hs hn hu ha, fun e => e ▸ ha⟩, max n (depth t + 3), fun m hm => ?_⟩
  have h1 := reifyS_table (name := fun k => some (name k)) (nm := name) (fun _ => rfl) t m (by omega) [] List.nodup_nil
  have h2 := walkStar_table name (nodup_firsts t.vars) t m (by omega) fun x hx => mem_firsts.2 hx
  unfold reifyState
  rw [walkStar_le (by omega) h]
  simp only [table] at h1
  simp only [h1]
  exact h2

/-! ### what is shown -/

theorem idxOf_inj {l : List Nat} {x y : Nat} (hx : x ∈ l) (h : l.idxOf x = l.idxOf y) : x = y := by
  have h1 : l.idxOf x < l.length := List.idxOf_lt_length_iff.mpr hx
  have e1 : l[l.idxOf x] = x := List.getElem_idxOf h1
  have e2 : l[l.idxOf y]'(h ▸ h1) = y := List.getElem_idxOf _
  rw [← e1, ← e2]
  simp only [h]

theorem foldl_map {f : Nat → Nat} : ∀ (m l : List Nat), (∀ x ∈ l ++ m, ∀ y ∈ l ++ m, f x = f y → x = y) →
    (m.map f).foldl addTo (l.map f) = (m.foldl addTo l).map f
  | [], _, _ => rfl
  | x :: m, l, hf => by
    have key : addTo (l.map f) (f x) = (addTo l x).map f := by
      unfold addTo
      by_cases hx : x ∈ l
      · rw [if_pos hx, if_pos (List.mem_map.mpr ⟨x, hx, rfl⟩)]
      · have : f x ∉ l.map f := by
          intro h
          obtain ⟨y, hy, e⟩ := List.mem_map.mp h
          exact hx (hf y (by simp [hy]) x (by simp) e ▸ hy)
        rw [if_neg hx, if_neg this, List.map_append]
        rfl
    rw [List.map_cons, List.foldl_cons, List.foldl_cons, key]
    refine foldl_map m _ fun y hy z hz => hf y ?_ z ?_
    · rcases List.mem_append.mp hy with h | h
      · rcases mem_addTo.1 h with h | h <;> simp [h]
      · simp [h]
    · rcases List.mem_append.mp hz with h | h
      · rcases mem_addTo.1 h with h | h <;> simp [h]
      · simp [h]

theorem idxOf_map {f : Nat → Nat} {x : Nat} : ∀ {l : List Nat}, (∀ y ∈ l, f y = f x → y = x) → (l.map f).idxOf (f x) = l.idxOf x
  | [], _ => rfl
  | y :: l, h => by
    simp only [List.map_cons, List.idxOf_cons]
    by_cases e : y = x
    · subst e; simp
    · have : f y ≠ f x := fun e' => e (h y (by simp) e')
      simp [beq_false_of_ne e, beq_false_of_ne this, idxOf_map (l := l) fun z hz => h z (by simp [hz])]

theorem vars_rename (f : Nat → Nat) (t : LTerm A) : (t.inst fun x => .var (f x)).vars = t.vars.map f := by
  induction t with
  | var x => rfl
  | atom a => rfl
  | cons a b iha ihb => simp [LTerm.inst, LTerm.vars, iha, ihb]

theorem inst_inst (t : LTerm A) (f : Nat → Nat) (θ : Nat → LTerm A) : (t.inst fun x => .var (f x)).inst θ = t.inst fun x => θ (f x) := by
  induction t with
  | var x => rfl
  | atom a => rfl
  | cons a b iha ihb => simp [LTerm.inst, iha, ihb]

theorem inst_congr {t : LTerm A} {θ θ' : Nat → LTerm A} (h : ∀ x ∈ t.vars, θ x = θ' x) : t.inst θ = t.inst θ' := by
  induction t with
  | var x => exact h x (by simp [LTerm.vars])
  | atom a => rfl
  | cons a b iha ihb =>
    rw [LTerm.inst, LTerm.inst, iha fun x hx => h x (by simp [LTerm.vars, hx]), ihb fun x hx => h x (by simp [LTerm.vars, hx])]

theorem inst_names {m m' : Nat → A} : ∀ {t t' : LTerm A}, (∀ a, HasAtom t a → ∀ k, a ≠ m' k) → (∀ a, HasAtom t' a → ∀ k, a ≠ m k) →
    t.inst (fun x => .atom (m x)) = t'.inst (fun x => .atom (m' x)) →
    ∃ p : List (Nat × Nat), p.map (·.1) = t.vars ∧ p.map (·.2) = t'.vars ∧ (∀ e ∈ p, m e.1 = m' e.2) ∧
      ∀ g : Nat → Nat, (∀ e ∈ p, g e.1 = e.2) → t' = t.inst fun x => .var (g x)
  | .var x, .var y, _, _, h => by
    simp only [LTerm.inst, LTerm.atom.injEq] at h
    exact ⟨[(x, y)], rfl, rfl, by simpa using h, fun g hg => by
      have : g x = y := hg (x, y) (by simp)
      simp [LTerm.inst, this]⟩
  | .var x, .atom a, _, h2, h => by
    simp only [LTerm.inst, LTerm.atom.injEq] at h
    exact absurd h.symm (h2 a rfl x)
  | .atom a, .var y, h1, _, h => by
    simp only [LTerm.inst, LTerm.atom.injEq] at h
    exact absurd h (h1 a rfl y)
  | .atom a, .atom b, _, _, h => by
    simp only [LTerm.inst, LTerm.atom.injEq] at h
    subst h
    exact ⟨[], rfl, rfl, by simp, fun _ _ => rfl⟩
  | .cons a b, .cons a' b', h1, h2, h => by
    simp only [LTerm.inst, LTerm.cons.injEq] at h
    obtain ⟨p, p1, p2, p3, p4⟩ := inst_names (t := a) (t' := a') (fun c hc => h1 c (.inl hc)) (fun c hc => h2 c (.inl hc)) h.1
    obtain ⟨q, q1, q2, q3, q4⟩ := inst_names (t := b) (t' := b') (fun c hc => h1 c (.inr hc)) (fun c hc => h2 c (.inr hc)) h.2
    refine ⟨p ++ q, by simp [p1, q1, LTerm.vars], by simp [p2, q2, LTerm.vars], ?_, fun g hg => ?_⟩
    · intro e he
      rcases List.mem_append.mp he with he | he
      · exact p3 e he
      · exact q3 e he
    · rw [LTerm.inst, ← p4 g fun e he => hg e (by simp [he]), ← q4 g fun e he => hg e (by simp [he])]
  | .var _, .cons _ _, _, _, h => by simp [LTerm.inst] at h
  | .atom _, .cons _ _, _, _, h => by simp [LTerm.inst] at h
  | .cons _ _, .var _, _, _, h => by simp [LTerm.inst] at h
  | .cons _ _, .atom _, _, _, h => by simp [LTerm.inst] at h

/-- C91 (b). Two answers are shown alike exactly when they are the same up to the names of their free variables (if the names shown are
different and do not occur in the answers). So an answer does not depend on how many variables the program made before. -/
theorem C91_alike (name : Nat → A) (hname : ∀ i j, name i = name j → i = j) (t t' : LTerm A)
    (ht : ∀ k, ¬ HasAtom t (name k)) (ht' : ∀ k, ¬ HasAtom t' (name k)) : shown name t = shown name t' ↔ Renamed t t' := by
  constructor
  · intro h
    obtain ⟨p, p1, p2, p3, p4⟩ := inst_names (fun a ha k e => ht _ (e ▸ ha)) (fun a ha k e => ht' _ (e ▸ ha)) h
    have p5 : ∀ e ∈ p, (firsts t.vars).idxOf e.1 = (firsts t'.vars).idxOf e.2 := fun e he => hname _ _ (p3 e he)
    let g : Nat → Nat := fun x => (firsts t'.vars)[(firsts t.vars).idxOf x]?.getD 0
    have hg : ∀ e ∈ p, g e.1 = e.2 := by
      intro e he
      have hm : e.2 ∈ firsts t'.vars := mem_firsts.2 (p2 ▸ List.mem_map.mpr ⟨e, he, rfl⟩)
      have hl := List.idxOf_lt_length_iff.mpr hm
      simp only [g, p5 e he, List.getElem?_eq_getElem hl, Option.getD_some]
      exact List.getElem_idxOf hl
    refine ⟨g, fun x hx y hy e => ?_, p4 g hg⟩
    rw [← p1] at hx hy
    obtain ⟨a, ha, rfl⟩ := List.mem_map.mp hx
    obtain ⟨b, hb, rfl⟩ := List.mem_map.mp hy
    rw [hg a ha, hg b hb] at e
    have hm : a.1 ∈ firsts t.vars := mem_firsts.2 (p1 ▸ List.mem_map.mpr ⟨a, ha, rfl⟩)
    exact idxOf_inj hm (by rw [p5 a ha, p5 b hb, e])
  · rintro ⟨f, hf, rfl⟩
    unfold shown
    rw [inst_inst, vars_rename, firsts_eq, firsts_eq]
    refine inst_congr fun x hx => ?_
    have e := foldl_map (f := f) t.vars [] (by simpa using hf)
    simp only [List.map_nil] at e
    rw [e, idxOf_map fun y hy => hf y (by simpa [mem_foldl] using hy) x hx]

theorem walkStar_nil : ∀ (t : LTerm A) (n : Nat), depth t + 3 ≤ n → walkStar n t [] = some t
  | .var x, n, hn => by
    obtain ⟨n, rfl⟩ : ∃ m, n = m + 3 := ⟨n - 3, by simp only [depth] at hn; omega⟩
    rfl
  | .atom a, n, hn => by
    obtain ⟨n, rfl⟩ : ∃ m, n = m + 3 := ⟨n - 3, by simp only [depth] at hn; omega⟩
    rfl
  | .cons a b, n, hn => by
    simp only [depth] at hn
    obtain ⟨n, rfl⟩ : ∃ m, n = m + 2 := ⟨n - 2, by omega⟩
    rw [walkStar]
    simp only [walk, walkStar_nil a (n + 1) (by omega), walkStar_nil b (n + 1) (by omega)]

theorem reifyS_ground {name : Nat → Option A} : ∀ (n : Nat) (t : LTerm A), t.vars = [] → ∀ s r, reifyS name n t s = some r → r = s
  | 0, _, _, _, _, h => by simp [reifyS] at h
  | n + 1, .var x, hv, _, _, _ => by simp [LTerm.vars] at hv
  | n + 1, .atom a, _, s, r, h => by
    rw [reifyS] at h
    cases n with
    | zero => simp [walk] at h
    | succ n => simpa [walk, eq_comm] using h
  | n + 1, .cons a b, hv, s, r, h => by
    simp only [LTerm.vars, List.append_eq_nil_iff] at hv
    rw [reifyS] at h
    cases n with
    | zero => simp [walk] at h
    | succ n =>
      simp only [walk] at h
      cases h1 : reifyS name (n + 1) a s with
      | none => rw [h1] at h; simp at h
      | some s1 =>
        rw [h1] at h
        rw [reifyS_ground (n + 1) b hv.2 s1 r h, reifyS_ground (n + 1) a hv.1 s s1 h1]

/-- C91 (c), the code as it is: an answer without free variables is shown as it is. -/
theorem C91_ground_partial (s : Subst A) (hs : Acyclic s) (hn : (s.map (·.1)).Nodup) (t : LTerm A) (ht : t.vars = [])
    (ha : Answer s 0 t) : ∃ N, ∀ n, N ≤ n → reifyState reifyName n s = some t := by
  obtain ⟨n, u, h⟩ := walkStar_total hs (.var 0)
  have e := answer_unique hs hn (walkStar_answer h) ha
  subst e
  have key : ∀ (t : LTerm A) (n : Nat), t.vars = [] → depth t + 3 ≤ n → reifyS reifyName n t [] = some [] := by
    intro t
    induction t with
    | var x => intro n hv; simp [LTerm.vars] at hv
    | atom a =>
      intro n _ hn
      obtain ⟨n, rfl⟩ : ∃ m, n = m + 3 := ⟨n - 3, by simp only [depth] at hn; omega⟩
      rfl
    | cons a b iha ihb =>
      intro n hv hn
      simp only [LTerm.vars, List.append_eq_nil_iff] at hv
      simp only [depth] at hn
      obtain ⟨n, rfl⟩ : ∃ m, n = m + 2 := ⟨n - 2, by omega⟩
      rw [reifyS]
      simp only [walk, iha (n + 1) hv.1 (by omega), ihb (n + 1) hv.2 (by omega)]
  refine ⟨max n (depth u + 3), fun m hm => ?_⟩
  unfold reifyState
  rw [walkStar_le (by omega) h]
  simp only [key u m ht (by omega)]
  exact walkStar_nil u m (by omega)

/-- C91 is false of the code: no answer with a free variable is ever shown, since `reify-name` calls a function that does not exist. -/
theorem C91_free_variable_wrong (s : Subst A) (hs : Acyclic s) (hn : (s.map (·.1)).Nodup) (t : LTerm A) (ht : t.vars ≠ [])
    (ha : Answer s 0 t) (n : Nat) : reifyState reifyName n s = none := by
  have key : ∀ (n : Nat) (t : LTerm A), t.vars ≠ [] → reifyS reifyName n t [] = none := by
    intro n
    induction n with
    | zero => intro t _; rfl
    | succ n ih =>
      intro t hv
      rw [reifyS]
      cases t with
      | atom a => exact absurd rfl hv
      | var x => cases n <;> rfl
      | cons a b =>
        cases n with
        | zero => rfl
        | succ n =>
          simp only [walk]
          by_cases h : a.vars = []
          · have hb : b.vars ≠ [] := fun e => hv (by simp [LTerm.vars, h, e])
            cases hr : reifyS reifyName (n + 1) a [] with
            | none => rfl
            | some r =>
              have : r = [] := by
                have := reifyS_ground (n + 1) a h [] r hr
                exact this
              subst this
              exact ih b hb
          · rw [ih a h]
  unfold reifyState
  cases h : walkStar n (.var 0) s with
  | none => rfl
  | some u =>
    have e := answer_unique hs hn (walkStar_answer h) ha
    subst e
    simp only [key n u ht]

/-- C91 (d), all answers: with the names `_.0`, `_.1`, … that `reify-name` was meant to give, the list of answers of a program is the list
of what its states say about the first variable, in the same order. -/
theorem C91_answers (sym : String → A) (l : List (Subst A)) (hl : ∀ s ∈ l, Acyclic s ∧ (s.map (·.1)).Nodup) :
    ∃ ts : List (LTerm A), ts.length = l.length ∧ (∀ (i : Nat) s, l[i]? = some s → ∃ t, ts[i]? = some t ∧ Answer s 0 t) ∧
      ∃ N, ∀ n, N ≤ n → reify (intendedName sym) n l = some (ts.map (shown fun k => sym ("_." ++ toString k))) := by
  induction l with
  | nil => exact ⟨[], rfl, fun i s h => by simp at h, 0, fun n _ => rfl⟩
  | cons s l ih =>
    obtain ⟨ts, h1, h2, N, h3⟩ := ih fun s hs => hl s (by simp [hs])
    obtain ⟨t, g1, M, g2⟩ := C91_numbered (fun k => sym ("_." ++ toString k)) s (hl s (by simp)).1 (hl s (by simp)).2
    refine ⟨t :: ts, by simp [h1], fun i s' h => ?_, max N M, fun n hn => ?_⟩
    · cases i with
      | zero =>
        simp only [List.getElem?_cons_zero, Option.some.injEq] at h
        subst h
        exact ⟨t, rfl, (g1 t).2 rfl⟩
      | succ i => exact h2 i s' (by simpa using h)
    · have e1 := h3 n (by omega)
      have e2 := g2 n (by omega)
      unfold reify at e1 ⊢
      rw [List.mapM_cons, e1]
      have : reifyState (intendedName sym) n s = some (shown (fun k => sym ("_." ++ toString k)) t) := e2
      rw [this]
      rfl

/-- non-vacuity: `x0 = (x3 . (x1 . (x3 . a)))` with `x1 = b`: shown as `(_.0 . (b . (_.0 . a)))`, and refused by the code -/
example : Acyclic [(1, LTerm.atom "b"), (0, .cons (.var 3) (.cons (.var 1) (.cons (.var 3) (.atom "a"))))] :=
  ⟨fun x => if x = 0 then 1 else 0, by decide⟩

example : reifyState (intendedName id) 10 [(1, LTerm.atom "b"), (0, .cons (.var 3) (.cons (.var 1) (.cons (.var 3) (.atom "a"))))] =
    some (.cons (.atom "_.0") (.cons (.atom "b") (.cons (.atom "_.0") (.atom "a")))) := by decide

example : reifyState reifyName 10 [(1, LTerm.atom "b"), (0, .cons (.var 3) (.cons (.var 1) (.cons (.var 3) (.atom "a"))))] = none := by
  decide

end Cora.Unify
