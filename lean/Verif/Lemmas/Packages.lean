import Verif.Props.Maps
import Verif.Spec.Packages
/-
C104: the invariant of libraries, machines and threads.
-/
namespace Cora.Pkg
open Spec Spec.Pkg

theorem bindAll_spec (ks : List Key) {g : Globals} (h : g.Inv) :
    (bindAll g ks).1.Inv ∧ (bindAll g ks).2.map (·.1) = ks ∧
    (∀ b ∈ (bindAll g ks).2, (bindAll g ks).1.env.get b.1 = some b.2) ∧
    (∀ x, (bindAll g ks).1.val x = g.val x) ∧
    (∀ k i, g.env.get k = some i → (bindAll g ks).1.env.get k = some i) := by
  induction ks generalizing g with
  | nil => exact ⟨h, rfl, nofun, fun _ => rfl, fun _ _ h => h⟩
  | cons k r ih =>
    obtain ⟨a1, a2, a3, a4⟩ := bindSymbol_spec h k
    obtain ⟨b1, b2, b3, b4, b5⟩ := ih a1
    refine ⟨b1, by simp only [bindAll, List.map_cons, b2], ?_, fun x => ?_, fun k i hk => b5 _ _ (a4 _ _ hk)⟩
    · intro b hb
      simp only [bindAll, List.mem_cons] at hb
      rcases hb with rfl | hb
      · exact b5 _ _ a2
      · exact b3 b hb
    · simp only [bindAll]; rw [b4, a3]

theorem addPackage_spec {pkgs : List (Option Table)} {id : Int} {t : Table} (h : 0 ≤ id) :
    ∃ p, addPackage pkgs id t = some p ∧ p[id.toNat]? = some (some t) ∧
      (∀ i : Nat, i ≠ id.toNat → ∀ tb : Table, p[i]? = some (some tb) ↔ pkgs[i]? = some (some tb)) := by
  refine ⟨_, by rw [addPackage, if_neg (by omega)], ?_, ?_⟩
  · rw [List.getElem?_set_self]
    simp only [List.length_append, List.length_replicate]; omega
  · intro i hi tb
    rw [List.getElem?_set_ne (Ne.symm hi), List.getElem?_append]
    split
    · exact Iff.rfl
    · rename_i hl
      rw [List.getElem?_replicate, List.getElem?_eq_none (by omega)]
      constructor
      · split <;> simp
      · simp

/-- what is known of the machine of a thread that has loaded the libraries `L` -/
structure Good (tables : Nat → List Key) (ids : Nat → Int) (L : List Nat) (m : Machine) : Prop where
  inv : m.globals.Inv
  has : ∀ l ∈ L, 0 ≤ ids l ∧ ∃ tb, m.pkgs[(ids l).toNat]? = some (some tb)
  only : ∀ (i : Nat) (tb : Table), m.pkgs[i]? = some (some tb) → ∃ l ∈ L, ids l = i ∧ tb.map (·.1) = tables l ∧
    ∀ b ∈ tb, m.globals.env.get b.1 = some b.2

def Where.lib : Where → Option Nat
  | .outside => none
  | .alloc l => some l
  | .got l _ => some l
  | .wrote l _ => some l
  | .table l => some l

def Where.Ok (next : Int) (ids : Nat → Int) : Where → Prop
  | .outside => True
  | .alloc l => ids l = -1
  | .got l v => ids l = -1 ∧ v = next
  | .wrote l v => ids l = -1 ∧ next = v + 1 ∧ 0 ≤ v ∧ ∀ k, ids k ≠ v
  | .table l => 0 ≤ ids l

structure Inv (tables : Nat → List Key) (s : State) (cur : Nat → Option Nat) (L : Nat → List Nat) : Prop where
  pos : 0 ≤ s.next
  ids : ∀ l, s.ids l = -1 ∨ 0 ≤ s.ids l ∧ s.ids l < s.next
  inj : ∀ l l', s.ids l = s.ids l' → s.ids l ≠ -1 → l = l'
  ok : ∀ t, (s.at' t).Ok s.next s.ids
  cur : ∀ t, cur t = (s.at' t).lib
  fresh : ∀ t, s.machine t = none → s.at' t = .outside ∧ L t = []
  good : ∀ t m, s.machine t = some m → Good tables s.ids (L t) m

theorem Inv.start (tables : Nat → List Key) : Inv tables State.start (fun _ => none) (fun _ => []) :=
  ⟨by decide, fun _ => .inl rfl, fun _ _ _ h => absurd rfl h, fun _ => trivial, fun _ => rfl, fun _ _ => ⟨rfl, rfl⟩, nofun⟩

/-- the value of a variable of a thread -/
def State.val (s : State) (t : Nat) (k : Key) : Obj :=
  match s.machine t with
  | some m => m.globals.val (.interned k)
  | none => Undef

theorem Good.keep {tables ids L m} (h : Good tables ids L m) {g : Globals} (hg : g.Inv)
    (he : ∀ k i, m.globals.env.get k = some i → g.env.get k = some i) : Good tables ids L { m with globals := g } :=
  ⟨hg, h.has, fun i tb hi => by
    obtain ⟨l, h1, h2, h3, h4⟩ := h.only i tb hi
    exact ⟨l, h1, h2, h3, fun b hb => he _ _ (h4 b hb)⟩⟩

theorem Good.binding {tables ids L m} (h : Good tables ids L m) (inj : ∀ l l', ids l = ids l' → ids l ≠ -1 → l = l') {l : Nat} {slot : Nat}
    {b : Key × Nat} (hb : getBinding m (ids l) slot = some b) :
    l ∈ L ∧ (tables l)[slot]? = some b.1 ∧ m.globals.env.get b.1 = some b.2 := by
  unfold getBinding at hb
  split at hb
  · cases hb
  · rename_i hp
    split at hb
    · rename_i tb ht
      obtain ⟨l', h1, h2, h3, h4⟩ := h.only _ _ ht
      have : l = l' := inj l l' (by omega) (by omega)
      subst this
      refine ⟨h1, ?_, h4 b (List.mem_of_getElem? hb)⟩
      rw [← h3, List.getElem?_map, hb]; rfl
    · cases hb

theorem Good.found {tables ids L m} (h : Good tables ids L m) (inj : ∀ l l', ids l = ids l' → ids l ≠ -1 → l = l') {l : Nat} (hl : l ∈ L)
    {slot : Nat} {k : Key} (hk : (tables l)[slot]? = some k) :
    ∃ i, getBinding m (ids l) slot = some (k, i) ∧ m.globals.env.get k = some i := by
  obtain ⟨h0, tb, ht⟩ := h.has l hl
  obtain ⟨l', h1, h2, h3, h4⟩ := h.only _ _ ht
  have : l = l' := inj l l' (by omega) (by omega)
  subst this
  rw [← h3, List.getElem?_map] at hk
  cases hb : tb[slot]? with
  | none => rw [hb] at hk; cases hk
  | some b =>
    rw [hb] at hk
    have e : b.1 = k := by simpa using hk
    subst e
    refine ⟨b.2, ?_, h4 b (List.mem_of_getElem? hb)⟩
    simp only [getBinding, if_neg (show ¬ ids l < 0 by omega), ht, hb]

/-- moving one thread -/
theorem Inv.move {tables s cur L} (h : Inv tables s cur L) {t : Nat} {w : Where} (hm : s.machine t ≠ none)
    (hw : w.Ok s.next s.ids) : Inv tables (s.move t w) (fun u => if u = t then w.lib else cur u) L := by
  refine ⟨h.pos, h.ids, h.inj, ?_, ?_, ?_, h.good⟩
  · intro u
    by_cases e : u = t
    · simpa [State.move, e] using hw
    · simpa [State.move, e] using h.ok u
  · intro u
    by_cases e : u = t
    · simp [State.move, e]
    · simpa [State.move, e] using h.cur u
  · intro u hu
    have e : u ≠ t := by rintro rfl; exact hm hu
    simpa [State.move, e] using h.fresh u hu

theorem Inv.machine {tables s cur L} (h : Inv tables s cur L) {t : Nat} (ht : s.at' t ≠ .outside) : ∃ m, s.machine t = some m := by
  cases hm : s.machine t with
  | some m => exact ⟨m, rfl⟩
  | none => exact absurd (h.fresh t hm).1 ht

/-- a new machine for one thread -/
theorem Inv.put {tables s cur L} (h : Inv tables s cur L) {t : Nat} {m : Machine} (hm : Good tables s.ids (L t) m) :
    Inv tables (s.put t m) cur L := by
  refine ⟨h.pos, h.ids, h.inj, h.ok, h.cur, ?_, ?_⟩
  · intro u hu
    by_cases e : u = t
    · simp [State.put, e] at hu
    · exact h.fresh u (by simpa [State.put, e] using hu)
  · intro u m' hu
    by_cases e : u = t
    · subst e
      have : m = m' := by simpa [State.put] using hu
      exact this ▸ hm
    · exact h.good u m' (by simpa [State.put, e] using hu)

def curOf (cur : Nat → Option Nat) : Act → Nat → Option Nat
  | .enter t l, u => if u = t then some l else cur u
  | .finish t, u => if u = t then none else cur u
  | _, u => cur u

def newOf (cur : Nat → Option Nat) : Act → Nat → List Nat
  | .finish t, u => if u = t then (cur t).toList else []
  | _, _ => []

theorem loaded_cons (t : Nat) (cur : Nat → Option Nat) (a : Act) (r : List Act) :
    loaded t (cur t) (a :: r) = newOf cur a t ++ loaded t (curOf cur a t) r := by
  cases a with
  | enter u l =>
    by_cases e : u = t
    · simp [loaded, newOf, curOf, e]
    · have e' : ¬ t = u := fun h => e h.symm
      simp [loaded, newOf, curOf, e, e']
  | finish u =>
    by_cases e : u = t
    · subst e; simp [loaded, newOf, curOf]
    · have e' : ¬ t = u := fun h => e h.symm
      simp [loaded, newOf, curOf, e, e']
  | _ => rfl

theorem done_cons (tables : Nat → List Key) (t : Nat) (a : Act) (r : List Act) :
    done tables t (a :: r) = done tables t [a] ++ done tables t r := by
  cases a with
  | op u o => by_cases e : u = t <;> simp [done, e]
  | store u l slot v =>
    by_cases e : u = t
    · simp only [done, e, if_true]; split <;> rfl
    · simp [done, e]
  | _ => rfl

theorem lastSet_append (a b : List GOp) (x : Sym) : lastSet (a ++ b) x = (lastSet b x).or (lastSet a x) := by
  induction a with
  | nil => simp [lastSet]
  | cons o a ih => cases o <;> simp [lastSet, ih, Option.or_assoc]

theorem Inv.eq_cur {tables s cur cur' L L'} (h : Inv tables s cur L) (hc : ∀ t, cur' t = cur t) (hL : ∀ t, L' t = L t) :
    Inv tables s cur' L' := by
  have e : cur' = cur := funext hc
  have e' : L' = L := funext hL
  exact e ▸ e' ▸ h

/-- changing the numbers keeps a machine good -/
theorem Good.ids {tables ids ids' L m} (h : Good tables ids L m) (he : ∀ l, 0 ≤ ids l → ids' l = ids l) : Good tables ids' L m :=
  ⟨h.inv, fun l hl => by
    obtain ⟨a, b⟩ := h.has l hl
    rw [he l a]; exact ⟨a, b⟩,
   fun i tb hi => by
    obtain ⟨l, h1, h2, h3, h4⟩ := h.only i tb hi
    exact ⟨l, h1, by rw [he l (by omega)]; exact h2, h3, h4⟩⟩

theorem step_inv {tables s s' cur L a} (h : Inv tables s cur L) (one : ∀ t u, Numbering s t → Numbering s u → t = u)
    (hs : step tables s a = some s') :
    Inv tables s' (curOf cur a) (fun t => L t ++ newOf cur a t) ∧
      ∀ t k, s'.val t k = (lastSet (done tables t [a]) (.interned k)).getD (s.val t k) := by
  cases a with
  | make t =>
    simp only [step] at hs
    split at hs
    · rename_i hm
      cases hs
      obtain ⟨ho, hL⟩ := h.fresh t hm
      refine ⟨(h.put (t := t) ⟨Globals.init_inv, by rw [hL]; nofun, by intro i tb hi; simp at hi⟩).eq_cur (fun _ => rfl)
        (fun _ => by simp [newOf]), ?_⟩
      intro u k
      by_cases e : u = t
      · subst e
        simp [State.val, State.put, hm, done, lastSet, Globals.init_val, initialValue]
      · simp [State.val, State.put, e, done, lastSet]
    · cases hs
  | enter t l =>
    simp only [step] at hs
    split at hs
    · rename_i m ho hm
      cases hs
      refine ⟨(h.move (t := t) (w := if s.ids l = -1 then .alloc l else .table l) (by rw [hm]; nofun) ?_).eq_cur ?_
        (fun _ => by simp [newOf]), fun u k => rfl⟩
      · have := h.ids l
        split
        · assumption
        · simp only [Where.Ok]; omega
      · intro u
        simp only [curOf]
        split
        · split <;> rfl
        · rfl
    · cases hs
  | read t =>
    simp only [step] at hs
    split at hs
    · rename_i l ho
      cases hs
      obtain ⟨m, hm⟩ := h.machine (t := t) (by rw [ho]; nofun)
      have hok := h.ok t
      rw [ho] at hok
      refine ⟨(h.move (t := t) (w := .got l s.next) (by rw [hm]; nofun) ⟨hok, rfl⟩).eq_cur ?_ (fun _ => by simp [newOf]), fun u k => rfl⟩
      intro u
      simp only [curOf]
      split
      · rename_i e; rw [e, h.cur, ho]; rfl
      · rfl
    · cases hs
  | write t =>
    simp only [step] at hs
    split at hs
    · rename_i l v ho
      cases hs
      obtain ⟨m, hm⟩ := h.machine (t := t) (by rw [ho]; nofun)
      have hok := h.ok t
      rw [ho] at hok
      obtain ⟨h1, h2⟩ := hok
      have hp := h.pos
      have nt : Numbering s t := ⟨l, .inr (.inl ⟨v, ho⟩)⟩
      refine ⟨⟨by simp only [State.move]; omega, ?_, h.inj, ?_, ?_, ?_, ?_⟩, fun u k => rfl⟩
      · intro k
        have := h.ids k
        simp only [State.move]; omega
      · intro u
        by_cases e : u = t
        · simp only [State.move, e, if_true, Where.Ok]
          refine ⟨h1, trivial, by omega, fun k => ?_⟩
          have := h.ids k
          omega
        · simp only [State.move, e, if_false]
          have hu := h.ok u
          cases hw : s.at' u with
          | outside => trivial
          | alloc k => exact absurd (one u t ⟨k, .inl hw⟩ nt) e
          | got k w => exact absurd (one u t ⟨k, .inr (.inl ⟨w, hw⟩)⟩ nt) e
          | wrote k w => exact absurd (one u t ⟨k, .inr (.inr ⟨w, hw⟩)⟩ nt) e
          | table k => rw [hw] at hu; exact hu
      · intro u
        by_cases e : u = t
        · simp only [State.move, e, if_true, curOf, h.cur, ho]; rfl
        · simp only [State.move, e, if_false, curOf, h.cur]
      · intro u hu
        have e : u ≠ t := by
          rintro rfl
          have hu' : s.machine u = none := hu
          rw [hm] at hu'; cases hu'
        have := h.fresh u hu
        simpa [State.move, e, newOf] using this
      · intro u m' hu
        have := h.good u m' hu
        simpa [newOf, State.move] using this
    · cases hs
  | assign t =>
    simp only [step] at hs
    split at hs
    · rename_i l v ho
      cases hs
      obtain ⟨m, hm⟩ := h.machine (t := t) (by rw [ho]; nofun)
      have hok := h.ok t
      rw [ho] at hok
      obtain ⟨h1, h2, h3, h4⟩ := hok
      have nt : Numbering s t := ⟨l, .inr (.inr ⟨v, ho⟩)⟩
      refine ⟨⟨h.pos, ?_, ?_, ?_, ?_, ?_, ?_⟩, fun u k => rfl⟩
      · intro k
        have := h.ids k
        simp only [State.move]
        split <;> omega
      · intro k k'
        simp only [State.move]
        have a := h4 k
        have b := h4 k'
        have c := h.inj k k'
        split <;> split <;> intro p q
        · omega
        · omega
        · omega
        · exact c p q
      · intro u
        by_cases e : u = t
        · simp only [State.move, e, if_true, Where.Ok]; exact h3
        · simp only [State.move, e, if_false]
          have hu := h.ok u
          cases hw : s.at' u with
          | outside => trivial
          | alloc k => exact absurd (one u t ⟨k, .inl hw⟩ nt) e
          | got k w => exact absurd (one u t ⟨k, .inr (.inl ⟨w, hw⟩)⟩ nt) e
          | wrote k w => exact absurd (one u t ⟨k, .inr (.inr ⟨w, hw⟩)⟩ nt) e
          | table k =>
            rw [hw] at hu
            simp only [Where.Ok] at hu ⊢
            split
            · exact h3
            · exact hu
      · intro u
        by_cases e : u = t
        · simp only [State.move, e, if_true, curOf, h.cur, ho]; rfl
        · simp only [State.move, e, if_false, curOf, h.cur]
      · intro u hu
        have e : u ≠ t := by
          rintro rfl
          have hu' : s.machine u = none := hu
          rw [hm] at hu'; cases hu'
        have := h.fresh u hu
        simpa [State.move, e, newOf] using this
      · intro u m' hu
        have g := (h.good u m' hu).ids (ids' := fun k => if k = l then v else s.ids k) (by
          intro k hk
          have e : k ≠ l := by rintro rfl; omega
          simp only [e, if_false])
        simpa [newOf, State.move] using g
    · cases hs
  | finish t =>
    simp only [step] at hs
    split at hs
    · rename_i l m ho hm
      have hok := h.ok t
      rw [ho] at hok
      have hok : 0 ≤ s.ids l := hok
      obtain ⟨b1, b2, b3, b4, b5⟩ := bindAll_spec (tables l) (h.good t m hm).inv
      obtain ⟨p, e1, e2, e3⟩ := addPackage_spec (pkgs := m.pkgs) (t := (bindAll m.globals (tables l)).2) hok
      rw [e1] at hs
      cases hs
      have hg := h.good t m hm
      have good : Good tables s.ids (L t ++ [l]) ⟨(bindAll m.globals (tables l)).1, p⟩ := by
        refine ⟨b1, ?_, ?_⟩
        · intro k hk
          rcases List.mem_append.mp hk with hk | hk
          · obtain ⟨c1, tb, c2⟩ := hg.has k hk
            refine ⟨c1, ?_⟩
            by_cases e : (s.ids k).toNat = (s.ids l).toNat
            · exact ⟨_, by rw [e]; exact e2⟩
            · exact ⟨tb, (e3 _ e tb).mpr c2⟩
          · obtain rfl := List.mem_singleton.mp hk
            exact ⟨hok, _, e2⟩
        · intro i tb hi
          by_cases e : i = (s.ids l).toNat
          · subst e
            have hi' : p[(s.ids l).toNat]? = some (some tb) := hi
            rw [e2] at hi'
            obtain rfl := Option.some.inj (Option.some.inj hi')
            exact ⟨l, by simp, by omega, b2, b3⟩
          · obtain ⟨k, c1, c2, c3, c4⟩ := hg.only i tb ((e3 i e tb).mp hi)
            exact ⟨k, by simp [c1], c2, c3, fun b hb => b5 _ _ (c4 b hb)⟩
      refine ⟨⟨h.pos, h.ids, h.inj, ?_, ?_, ?_, ?_⟩, ?_⟩
      · intro u
        by_cases e : u = t
        · simp only [State.move, State.put, e, if_true]; trivial
        · simp only [State.move, State.put, e, if_false]; exact h.ok u
      · intro u
        by_cases e : u = t
        · simp only [State.move, State.put, e, if_true, curOf]; rfl
        · simp only [State.move, State.put, e, if_false, curOf]; exact h.cur u
      · intro u hu
        by_cases e : u = t
        · simp [State.move, State.put, e] at hu
        · have := h.fresh u (by simpa [State.move, State.put, e] using hu)
          simpa [State.move, State.put, e, newOf] using this
      · intro u m' hu
        by_cases e : u = t
        · subst e
          have e' : (⟨(bindAll m.globals (tables l)).1, p⟩ : Machine) = m' := by simpa [State.move, State.put] using hu
          subst e'
          have hc : cur u = some l := by rw [h.cur, ho]; rfl
          simpa [newOf, hc, State.move, State.put] using good
        · have := h.good u m' (by simpa [State.move, State.put, e] using hu)
          simpa [newOf, e, State.move, State.put] using this
      · intro u k
        by_cases e : u = t
        · subst e
          simp [State.val, State.move, State.put, done, lastSet, hm, b4]
        · simp [State.val, State.move, State.put, done, lastSet, e]
    · cases hs
  | op t o =>
    simp only [step] at hs
    split at hs
    · rename_i m ho hm
      have hg := h.good t m hm
      obtain ⟨g, r1, r2, r3, r4⟩ := run_spec hg.inv o
      rw [r1] at hs
      cases hs
      refine ⟨(h.put (t := t) (hg.keep r2 r4)).eq_cur (fun _ => rfl) (fun _ => by simp [newOf]), ?_⟩
      intro u k
      by_cases e : u = t
      · subst e
        simp only [State.val, State.put, if_true, hm, done, r3]
        cases o with
        | set x v => simp only [lastSet, Option.none_or]; split <;> rfl
        | valueOr x d => rfl
        | bind x => rfl
      · have e' : ¬ t = u := fun h => e h.symm
        simp [State.val, State.put, done, lastSet, e, e']
    · cases hs
  | store t l slot v =>
    simp only [step] at hs
    split at hs
    · rename_i m ho hm
      have hg := h.good t m hm
      cases hb : getBinding m (s.ids l) slot with
      | none => rw [hb] at hs; cases hs
      | some b =>
        rw [hb] at hs
        obtain ⟨c1, c2, c3⟩ := hg.binding h.inj hb
        obtain ⟨g, r1, r2, r3, r4⟩ := primSet_spec hg.inv (.interned b.1) v
        simp only [Option.bind_some, r1, Option.map_some] at hs
        cases hs
        refine ⟨(h.put (t := t) (hg.keep r2 r4)).eq_cur (fun _ => rfl) (fun _ => by simp [newOf]), ?_⟩
        intro u k
        by_cases e : u = t
        · subst e
          simp only [State.val, State.put, if_true, hm, done, r3, c2, lastSet, Option.none_or]
          split <;> rfl
        · have e' : ¬ t = u := fun h => e h.symm
          simp [State.val, State.put, done, lastSet, e, e']
    · cases hs

theorem run_inv {tables} (hist : List Act) {s s' cur L} (h : Inv tables s cur L) (one : OneByOne tables s hist)
    (hs : run tables s hist = some s') :
    ∃ cur', Inv tables s' cur' (fun t => L t ++ loaded t (cur t) hist) ∧
      ∀ t k, s'.val t k = (lastSet (done tables t hist) (.interned k)).getD (s.val t k) := by
  induction hist generalizing s cur L with
  | nil => cases hs; exact ⟨cur, h.eq_cur (fun _ => rfl) (fun _ => by simp [loaded]), fun _ _ => rfl⟩
  | cons a r ih =>
    simp only [run] at hs
    cases hst : step tables s a with
    | none => rw [hst] at hs; cases hs
    | some s1 =>
      rw [hst] at hs
      obtain ⟨i1, v1⟩ := step_inv h (by unfold OneByOne at one; exact one.1) hst
      obtain ⟨cur', i2, v2⟩ := ih i1 (by unfold OneByOne at one; exact one.2 s1 hst) hs
      refine ⟨cur', i2.eq_cur (fun _ => rfl) (fun t => by rw [loaded_cons, List.append_assoc]), ?_⟩
      intro t k
      rw [v2, v1, done_cons tables t a r, lastSet_append]
      cases lastSet (done tables t r) (.interned k) <;> simp

end Cora.Pkg
