import Verif.Model.InternThreads
import Verif.Props.Maps
/-
C101: symbols and threads.
-/
namespace Cora.Threads

/-- at most one thread is on its way to enter a new name -/
def OneInside (s : Shared) : Prop := ∀ t u, s.threads t ≠ .outside → s.threads u ≠ .outside → t = u

/-- it is so all the time -/
def Alone : Shared → List Act → Prop
  | s, [] => OneInside s
  | s, a :: r => OneInside s ∧ ∀ s', s.act a = some s' → Alone s' r

/-- linking into the slot found before is storing, when nothing changed in between -/
theorem link_slot (k : Key) (p : Obj) (t : Trie Key Obj) (h : BitVec 64) (hn : t.lookup strEQ k h = none) :
    t.link (.node k p .nil .nil .nil .nil) (t.slot h) = t.set strEQ k p h := by
  induction t generalizing h with
  | nil => rfl
  | node k' v c0 c1 c2 c3 i0 i1 i2 i3 =>
    unfold Trie.lookup at hn
    split at hn
    · cases hn
    · rename_i he
      unfold Trie.set Trie.slot
      rw [if_neg he]
      split at hn
      · rename_i e; simp only [e, Trie.link, i0 _ hn]
      · rename_i e; simp only [e, Trie.link, i1 _ hn]
      · rename_i e; simp only [e, Trie.link, i2 _ hn]
      · rename_i e0 e1 e2
        split
        · rename_i e; exact absurd e e0
        · rename_i e; exact absurd e e1
        · rename_i e; exact absurd e e2
        · simp only [Trie.link, i3 _ hn]

/-- what holds while at most one thread enters a name; `later` are the addresses still to come -/
structure Good (s : Shared) (later : List Obj) : Prop where
  str : s.table.IsStr
  inj : ∀ k k' p, s.table.get k = some p → s.table.get k' = some p → k = k'
  low : ∀ k p, s.table.get k = some p → p >>> 48 = 0#64
  old : ∀ k p, s.table.get k = some p → p ∉ later
  results : ∀ r ∈ s.results, ∃ p, s.table.get r.name = some p ∧ r.sym = packed p TAG_SYMBOL
  missed : ∀ t k, s.threads t = .missed k → s.table.get k = none
  placed : ∀ t k p slot, s.threads t = .placed k p slot → s.table.get k = none ∧ slot = some (s.table.root.slot (s.table.hash k)) ∧
    p >>> 48 = 0#64 ∧ p ∉ later ∧ ∀ k', s.table.get k' ≠ some p

theorem Good.act {s s' : Shared} {a : Act} {later : List Obj} (h : Good s (addresses [a] ++ later)) (hn : (addresses [a] ++ later).Nodup)
    (hp : ∀ p ∈ addresses [a], p >>> 48 = 0#64) (h1 : OneInside s) (hi : a ≠ .init) (ha : s.act a = some s') : Good s' later := by
  cases a with
  | init => exact absurd rfl hi
  | look t name =>
    simp only [Shared.act] at ha
    cases ht : s.threads t with
    | missed k => rw [ht] at ha; cases ha
    | placed k p sl => rw [ht] at ha; cases ha
    | outside =>
      rw [ht] at ha
      dsimp only at ha
      cases hg : s.table.get (ckey name) with
      | some p =>
        rw [hg] at ha
        simp only [makeNaNPtr_eq (h.low _ _ hg), Option.map_some, Option.some.injEq] at ha
        subst ha
        refine ⟨h.str, h.inj, h.low, h.old, ?_, ?_, ?_⟩
        · intro r hr
          simp only [Shared.return, List.mem_cons] at hr
          rcases hr with rfl | hr
          · exact ⟨p, hg, rfl⟩
          · exact h.results r hr
        · intro u k hu
          simp only [Shared.return, Shared.move] at hu
          split at hu
          · cases hu
          · exact h.missed u k hu
        · intro u k p slot hu
          simp only [Shared.return, Shared.move] at hu
          split at hu
          · cases hu
          · exact h.placed u k p slot hu
      | none =>
        rw [hg] at ha
        cases ha
        refine ⟨h.str, h.inj, h.low, h.old, h.results, ?_, ?_⟩
        · intro u k hu
          simp only [Shared.move] at hu
          split at hu
          · cases hu; exact hg
          · exact h.missed u k hu
        · intro u k p slot hu
          simp only [Shared.move] at hu
          split at hu
          · cases hu
          · exact h.placed u k p slot hu
  | place t p =>
    simp only [Shared.act] at ha
    simp only [addresses, List.cons_append, List.nil_append, List.nodup_cons, List.mem_cons, List.not_mem_nil, or_false, forall_eq] at h hn hp
    cases ht : s.threads t with
    | outside => rw [ht] at ha; cases ha
    | placed k p sl => rw [ht] at ha; cases ha
    | missed k =>
      rw [ht] at ha
      have hg := h.missed t k ht
      simp only [hg, Option.some.injEq] at ha
      subst ha
      refine ⟨h.str, h.inj, h.low, fun k q hq hm => h.old k q hq (List.mem_cons_of_mem _ hm), h.results, ?_, ?_⟩
      · intro u k' hu
        simp only [Shared.move] at hu
        split at hu
        · cases hu
        · exact h.missed u k' hu
      · intro u k' q slot hu
        simp only [Shared.move] at hu
        split at hu
        · cases hu
          exact ⟨hg, rfl, hp, hn.1, fun k' hk => h.old k' _ hk (List.mem_cons_self ..)⟩
        · obtain ⟨a1, a2, a3, a4, a5⟩ := h.placed u k' q slot hu
          exact ⟨a1, a2, a3, fun hm => a4 (List.mem_cons_of_mem _ hm), a5⟩
  | link t =>
    simp only [Shared.act] at ha
    simp only [addresses, List.nil_append] at h hn
    cases ht : s.threads t with
    | outside => rw [ht] at ha; cases ha
    | missed k => rw [ht] at ha; cases ha
    | placed k p slot =>
      obtain ⟨a1, a2, a3, a4, a5⟩ := h.placed t k p slot ht
      rw [ht] at ha
      subst a2
      simp only [makeNaNPtr_eq a3, Option.map_some, Option.some.injEq] at ha
      have hroot : s.table.root.link (.node k p .nil .nil .nil .nil) (s.table.root.slot (s.table.hash k)) = (s.table.put k p).root := by
        have he := h.str.2
        have := link_slot k p s.table.root (s.table.hash k) (by rw [← he]; exact a1)
        rw [this]
        simp only [HMap.put, he]
      have htab : { s.table with root := s.table.root.link (.node k p .nil .nil .nil .nil) (s.table.root.slot (s.table.hash k)) } = s.table.put k p := by
        rw [hroot]; rfl
      rw [htab] at ha
      subst ha
      have hget : ∀ k', (s.table.put k p).get k' = if k' = k then some p else s.table.get k' := fun k' => h.str.get_put k k' p
      have others : ∀ u, (if u = t then Where.outside else s.threads u) = .outside := by
        intro u
        by_cases hu : u = t
        · rw [if_pos hu]
        · rw [if_neg hu]
          cases hw : s.threads u with
          | outside => rfl
          | missed _ => exact absurd (h1 u t (by rw [hw]; nofun) (by rw [ht]; nofun)) hu
          | placed _ _ _ => exact absurd (h1 u t (by rw [hw]; nofun) (by rw [ht]; nofun)) hu
      refine ⟨h.str.put k p, ?_, ?_, ?_, ?_, ?_, ?_⟩
      · intro x y q hx hy
        simp only [Shared.return, Shared.move, hget] at hx hy
        by_cases ex : x = k <;> by_cases ey : y = k
        · rw [ex, ey]
        · rw [if_pos ex] at hx; rw [if_neg ey] at hy; cases hx; exact absurd hy (a5 y)
        · rw [if_neg ex] at hx; rw [if_pos ey] at hy; cases hy; exact absurd hx (a5 x)
        · rw [if_neg ex] at hx; rw [if_neg ey] at hy; exact h.inj x y q hx hy
      · intro x q hx
        simp only [Shared.return, Shared.move, hget] at hx
        split at hx
        · cases hx; exact a3
        · exact h.low x q hx
      · intro x q hx
        simp only [Shared.return, Shared.move, hget] at hx
        split at hx
        · cases hx; exact a4
        · exact h.old x q hx
      · intro r hr
        simp only [Shared.return, Shared.move, List.mem_cons, hget] at hr ⊢
        rcases hr with rfl | hr
        · exact ⟨p, if_pos rfl, rfl⟩
        · obtain ⟨q, hq, he⟩ := h.results r hr
          refine ⟨q, ?_, he⟩
          rw [if_neg]
          · exact hq
          · intro e; rw [e, a1] at hq; cases hq
      · intro u k' hu
        have := others u
        simp only [Shared.return, Shared.move] at hu
        rw [this] at hu; cases hu
      · intro u k' q sl hu
        have := others u
        simp only [Shared.return, Shared.move] at hu
        rw [this] at hu; cases hu

theorem addresses_cons (a : Act) (r : List Act) : addresses (a :: r) = addresses [a] ++ addresses r := by
  cases a <;> rfl

theorem Good.run : ∀ (acts : List Act) {s s' : Shared}, Good s (addresses acts) → (addresses acts).Nodup →
    (∀ p ∈ addresses acts, p >>> 48 = 0#64) → Alone s acts → .init ∉ acts → s.run acts = some s' → Good s' []
  | [], s, s', h, _, _, _, _, hr => by cases hr; exact h
  | a :: acts, s, s', h, hn, hp, hal, hi, hr => by
    rw [addresses_cons] at h hn hp
    simp only [Shared.run] at hr
    cases ha : s.act a with
    | none => rw [ha] at hr; cases hr
    | some s1 =>
      rw [ha] at hr
      have h1 := h.act hn (fun p hp' => hp p (List.mem_append_left _ hp')) hal.1 (fun e => hi (by rw [e]; exact List.mem_cons_self ..)) ha
      exact Good.run acts h1 (List.nodup_append.mp hn).2.1 (fun p hp' => hp p (List.mem_append_right _ hp')) (hal.2 s1 ha)
        (fun e => hi (List.mem_cons_of_mem _ e)) hr

/-- what was returned before does not matter -/
theorem run_old (old : List Interned) : ∀ (acts : List Act) (s : Shared),
    Shared.run { s with results := s.results ++ old } acts = (s.run acts).map fun s' => { s' with results := s'.results ++ old } := by
  have act : ∀ (s : Shared) (a : Act),
      Shared.act { s with results := s.results ++ old } a = (s.act a).map fun s' => { s' with results := s'.results ++ old } := by
    intro s a
    cases a with
    | look t name =>
      simp only [Shared.act]
      split
      · split
        · cases makeNaNPtr _ TAG_SYMBOL <;> rfl
        · rfl
      · rfl
    | place t p =>
      simp only [Shared.act]
      split <;> rfl
    | link t =>
      simp only [Shared.act]
      split
      · cases makeNaNPtr _ TAG_SYMBOL <;> rfl
      · cases makeNaNPtr _ TAG_SYMBOL <;> rfl
      · rfl
    | init => rfl
  intro acts
  induction acts with
  | nil => intro s; rfl
  | cons a r ih =>
    intro s
    simp only [Shared.run, act]
    cases s.act a with
    | none => rfl
    | some s' => exact ih s'

theorem symbols_agree (acts : List Act) (hn : (addresses acts).Nodup) (hp : ∀ p ∈ addresses acts, p >>> 48 = 0#64)
    (hal : Alone .start acts) (hi : .init ∉ acts) (s : Shared) (hr : Shared.start.run acts = some s) (a b : Interned) (ha : a ∈ s.results)
    (hb : b ∈ s.results) : a.sym = b.sym ↔ a.name = b.name := by
  have h0 : Good .start (addresses acts) :=
    ⟨⟨rfl, rfl⟩, nofun, nofun, nofun, nofun, nofun, nofun⟩
  have h := h0.run acts hn hp hal hi hr
  obtain ⟨p, hp1, hp2⟩ := h.results a ha
  obtain ⟨q, hq1, hq2⟩ := h.results b hb
  constructor
  · intro e
    rw [hp2, hq2] at e
    have : p = q := by
      have := congrArg ptrOf e
      rwa [ptrOf_packed (h.low _ _ hp1), ptrOf_packed (h.low _ _ hq1)] at this
    subst this
    exact h.inj _ _ _ hp1 hq1
  · intro e
    rw [e, hq1] at hp1
    cases hp1
    rw [hp2, hq2]

/-- **C101**. Any number of threads, which have asked for whatever names before, and none is inside when the latest machine is made. From then
on, any schedule of their calls of `intern` in which at most one thread at a time is entering a new name (others may look names up meanwhile):
two calls, of whichever threads, return the same symbol exactly when they were given the same name. -/
theorem C101_symbols_partial (s0 s1 : Shared) (h0 : ∀ t, s0.threads t = .outside) (h1 : s0.act .init = some s1) (acts : List Act)
    (hn : (addresses acts).Nodup) (hp : ∀ p ∈ addresses acts, p >>> 48 = 0#64) (hal : Alone .start acts) (hi : .init ∉ acts)
    (s : Shared) (hr : s1.run acts = some s) :
    ∃ new, s.results = new ++ s0.results ∧ ∀ a ∈ new, ∀ b ∈ new, (a.sym = b.sym ↔ a.name = b.name) := by
  have e : s1 = { Shared.start with results := Shared.start.results ++ s0.results } := by
    cases h1
    have : s0.threads = fun _ => .outside := funext h0
    simp only [Shared.start, List.nil_append, this]
  rw [e, run_old] at hr
  obtain ⟨s', h', rfl⟩ := Option.map_eq_some_iff.mp hr
  exact ⟨s'.results, rfl, fun a ha b hb => symbols_agree acts hn hp hal hi s' h' a b ha hb⟩

/-- the names thread `t` asked for, in order, as C strings -/
def asked (t : Nat) : List Act → List Key
  | [] => []
  | .look u name :: r => if u = t then ckey name :: asked t r else asked t r
  | _ :: r => asked t r

/-- the names for which thread `t` was given symbols, in order -/
def answered (s : Shared) (t : Nat) : List Key := ((s.results.filter fun r => decide (r.thread = t)).map (·.name)).reverse

/-- the name a thread is busy with -/
def busy (s : Shared) (t : Nat) : List Key :=
  match s.threads t with
  | .outside => []
  | .missed k => [k]
  | .placed k _ _ => [k]

theorem act_asked {s s' : Shared} {a : Act} (ha : s.act a = some s') (t : Nat) :
    answered s' t ++ busy s' t = answered s t ++ busy s t ++ asked t [a] := by
  cases a with
  | init => cases ha; simp [answered, busy, asked]
  | look u name =>
    simp only [Shared.act] at ha
    cases ht : s.threads u with
    | missed k => rw [ht] at ha; cases ha
    | placed k p sl => rw [ht] at ha; cases ha
    | outside =>
      rw [ht] at ha
      dsimp only at ha
      cases hg : s.table.get (ckey name) with
      | none =>
        rw [hg] at ha
        cases ha
        by_cases hu : t = u
        · subst hu; simp [answered, busy, Shared.move, asked, ht]
        · simp [answered, busy, Shared.move, asked, hu, Ne.symm hu]
      | some p =>
        rw [hg] at ha
        simp only [Option.map_eq_some_iff] at ha
        obtain ⟨o, _, rfl⟩ := ha
        by_cases hu : t = u
        · subst hu; simp [answered, busy, Shared.return, Shared.move, asked, ht]
        · simp [answered, busy, Shared.return, Shared.move, asked, hu, Ne.symm hu]
  | place u p =>
    simp only [Shared.act] at ha
    cases ht : s.threads u with
    | outside => rw [ht] at ha; cases ha
    | placed k p sl => rw [ht] at ha; cases ha
    | missed k =>
      rw [ht] at ha
      simp only [Option.some.injEq] at ha
      subst ha
      by_cases hu : t = u
      · subst hu; simp [answered, busy, Shared.move, asked, ht]
      · simp [answered, busy, Shared.move, asked, hu]
  | link u =>
    simp only [Shared.act] at ha
    cases ht : s.threads u with
    | outside => rw [ht] at ha; cases ha
    | missed k => rw [ht] at ha; cases ha
    | placed k p sl =>
      rw [ht] at ha
      cases sl with
      | none =>
        simp only [Option.map_eq_some_iff] at ha
        obtain ⟨o, _, rfl⟩ := ha
        by_cases hu : t = u
        · subst hu; simp [answered, busy, Shared.return, Shared.move, asked, ht]
        · simp [answered, busy, Shared.return, Shared.move, asked, hu, Ne.symm hu]
      | some sl =>
        simp only [Option.map_eq_some_iff] at ha
        obtain ⟨o, _, rfl⟩ := ha
        by_cases hu : t = u
        · subst hu; simp [answered, busy, Shared.return, Shared.move, asked, ht]
        · simp [answered, busy, Shared.return, Shared.move, asked, hu, Ne.symm hu]

/-- every call of every thread is answered, in order, for the name it was given (those that have returned: `busy` is the one under way) -/
theorem C101_answers (acts : List Act) (s : Shared) (hr : Shared.start.run acts = some s) (t : Nat) :
    answered s t ++ busy s t = asked t acts := by
  have key : ∀ (acts : List Act) (s0 : Shared), s0.run acts = some s → answered s t ++ busy s t = answered s0 t ++ busy s0 t ++ asked t acts := by
    intro acts
    induction acts with
    | nil => intro s0 h; cases h; simp [asked]
    | cons a r ih =>
      intro s0 h
      simp only [Shared.run] at h
      cases ha : s0.act a with
      | none => rw [ha] at h; cases h
      | some s1 =>
        rw [ha] at h
        rw [ih s1 h, act_asked ha t, List.append_assoc]
        congr 1
        cases a with
        | look u name => by_cases hu : u = t <;> simp [asked, hu]
        | place u p => simp [asked]
        | link u => simp [asked]
        | init => simp [asked]
  simpa [answered, busy, Shared.start] using key acts .start hr

/-- two threads use a new name for the first time at the same moment -/
def race (name : Key) (p q : Obj) : List Act := [.look 1 name, .look 2 name, .place 1 p, .link 1, .place 2 q, .link 2, .look 1 name]

/-- They are given different symbols for it, whatever is in the table; and when the first thread asks again, it is given the symbol of the
second, not the one it was given before. -/
theorem C101_same_moment_wrong (s : Shared) (hs : s.table.IsStr) (h1 : s.threads 1 = .outside) (h2 : s.threads 2 = .outside) (name : Key)
    (hn : s.table.get (ckey name) = none) (p q : Obj) (hp : p >>> 48 = 0#64) (hq : q >>> 48 = 0#64) (hpq : p ≠ q) :
    ∃ s' o o', s.run (race name p q) = some s' ∧ o ≠ o' ∧
      s'.results = ⟨1, ckey name, o'⟩ :: ⟨2, ckey name, o'⟩ :: ⟨1, ckey name, o⟩ :: s.results := by
  have hg1 : (s.table.put (ckey name) p).get (ckey name) = some p := by rw [hs.get_put]; simp
  have hs1 : (s.table.put (ckey name) p).IsStr := hs.put _ _
  have hg2 : ((s.table.put (ckey name) p).put (ckey name) q).get (ckey name) = some q := by rw [hs1.get_put]; simp
  have htab : { s.table with root := s.table.root.link (.node (ckey name) p .nil .nil .nil .nil) (s.table.root.slot (s.table.hash (ckey name))) }
      = s.table.put (ckey name) p := by
    have he := hs.2
    rw [link_slot (ckey name) p s.table.root (s.table.hash (ckey name)) (by rw [← he]; exact hn)]
    simp only [HMap.put, he]
  have hrun : (s.run (race name p q)).map (·.results) = some (⟨1, ckey name, packed q TAG_SYMBOL⟩ :: ⟨2, ckey name, packed q TAG_SYMBOL⟩ ::
      ⟨1, ckey name, packed p TAG_SYMBOL⟩ :: s.results) := by
    simp only [race, Shared.run, Shared.act, h1, h2, hn, Shared.move, Shared.return, Option.bind_some, if_true, htab, makeNaNPtr_eq hp,
      makeNaNPtr_eq hq, Option.map_some, hg1, hg2, if_neg (by decide : ¬ (2 : Nat) = 1), if_neg (by decide : ¬ (1 : Nat) = 2)]
  obtain ⟨s', e1, e2⟩ := Option.map_eq_some_iff.mp hrun
  refine ⟨s', _, _, e1, fun e => ?_, e2⟩
  have := congrArg ptrOf e
  rw [ptrOf_packed hp, ptrOf_packed hq] at this
  exact hpq this

/-- Two threads use different new names at the same moment: one name is lost, and the thread that asked for it is given another symbol the
next time it asks. -/
theorem C101_lost_wrong (a b : Key) (hab : ckey a ≠ ckey b) (p q r : Obj) (hp : p >>> 48 = 0#64) (hq : q >>> 48 = 0#64) (hr : r >>> 48 = 0#64)
    (hpr : p ≠ r) :
    ∃ s' o o' o'', Shared.start.run [.look 1 a, .look 2 b, .place 1 p, .place 2 q, .link 1, .link 2, .look 1 a, .place 1 r, .link 1] = some s' ∧
      o ≠ o'' ∧ s'.results = [⟨1, ckey a, o''⟩, ⟨2, ckey b, o'⟩, ⟨1, ckey a, o⟩] := by
  have hmiss : (⟨.node (ckey b) q .nil .nil .nil .nil, strHash, strEQ⟩ : HMap Key Obj).get (ckey a) = none := by
    have : strEQ (ckey a) (ckey b) = false := by
      rw [Bool.eq_false_iff]; intro h; exact hab ((strEQ_iff _ _).mp h)
    simp only [HMap.get, Trie.lookup, this, Bool.false_eq_true, if_false]
    split <;> rfl
  have hnil : ∀ k, (⟨.nil, strHash, strEQ⟩ : HMap Key Obj).get k = none := fun _ => rfl
  have hrun : (Shared.start.run [.look 1 a, .look 2 b, .place 1 p, .place 2 q, .link 1, .link 2, .look 1 a, .place 1 r, .link 1]).map (·.results)
      = some [⟨1, ckey a, packed r TAG_SYMBOL⟩, ⟨2, ckey b, packed q TAG_SYMBOL⟩, ⟨1, ckey a, packed p TAG_SYMBOL⟩] := by
    simp only [Shared.run, Shared.act, Shared.start, HMap.init, hnil, Shared.move, Shared.return, Option.bind_some, if_true, makeNaNPtr_eq hp,
      makeNaNPtr_eq hq, makeNaNPtr_eq hr, Option.map_some, hmiss, Trie.slot, Trie.link, if_neg (by decide : ¬ (2 : Nat) = 1),
      if_neg (by decide : ¬ (1 : Nat) = 2)]
  obtain ⟨s', e1, e2⟩ := Option.map_eq_some_iff.mp hrun
  refine ⟨s', _, _, _, e1, fun e => ?_, e2⟩
  have := congrArg ptrOf e
  rw [ptrOf_packed hp, ptrOf_packed hr] at this
  exact hpr this

/-- A further machine is made, by any thread, while no call is under way: every name a thread uses after that is a symbol it was never given
before, since the table all machines share is made empty. In particular the symbols the program already holds for this name are others. -/
theorem C101_new_machine_wrong (s : Shared) (t : Nat) (ht : s.threads t = .outside) (name : Key) (p : Obj) (hp : p >>> 48 = 0#64)
    (hfresh : ∀ r ∈ s.results, r.sym ≠ packed p TAG_SYMBOL) :
    ∃ s' o, s.run [.init, .look t name, .place t p, .link t] = some s' ∧ s'.results = ⟨t, ckey name, o⟩ :: s.results ∧
      ∀ r ∈ s.results, r.name = ckey name → r.sym ≠ o := by
  have hnil : ∀ k, (⟨.nil, strHash, strEQ⟩ : HMap Key Obj).get k = none := fun _ => rfl
  have hrun : (s.run [.init, .look t name, .place t p, .link t]).map (·.results) = some (⟨t, ckey name, packed p TAG_SYMBOL⟩ :: s.results) := by
    simp only [Shared.run, Shared.act, HMap.init, Option.bind_some, ht, hnil, Shared.move, Shared.return, if_true, makeNaNPtr_eq hp, Option.map_some]
  obtain ⟨s', e1, e2⟩ := Option.map_eq_some_iff.mp hrun
  exact ⟨s', _, e1, e2, fun r hr _ => hfresh r hr⟩

/-- from the start: thread 1 uses a name, thread 2 makes its machine, thread 1 uses the name again -/
example (name : Key) (p q : Obj) (hp : p >>> 48 = 0#64) (hq : q >>> 48 = 0#64) (hpq : p ≠ q) :
    ∃ s' o o', Shared.start.run [.look 1 name, .place 1 p, .link 1, .init, .look 1 name, .place 1 q, .link 1] = some s' ∧
      s'.results = [⟨1, ckey name, o'⟩, ⟨1, ckey name, o⟩] ∧ o ≠ o' := by
  have hnil : ∀ k, (⟨.nil, strHash, strEQ⟩ : HMap Key Obj).get k = none := fun _ => rfl
  have hrun : (Shared.start.run [.look 1 name, .place 1 p, .link 1, .init, .look 1 name, .place 1 q, .link 1]).map (·.results) =
      some [⟨1, ckey name, packed q TAG_SYMBOL⟩, ⟨1, ckey name, packed p TAG_SYMBOL⟩] := by
    simp only [Shared.run, Shared.act, HMap.init, Shared.start, Option.bind_some, hnil, Shared.move, Shared.return, if_true, makeNaNPtr_eq hp,
      makeNaNPtr_eq hq, Option.map_some]
  obtain ⟨s', e1, e2⟩ := Option.map_eq_some_iff.mp hrun
  refine ⟨s', _, _, e1, e2, fun e => ?_⟩
  have := congrArg ptrOf e
  rw [ptrOf_packed hp, ptrOf_packed hq] at this
  exact hpq this

/-! ### the hypotheses are met -/

abbrev nameA : Key := ⟨[97], by decide⟩
abbrev nameB : Key := ⟨[98], by decide⟩

theorem one_of_only {s : Shared} (t : Nat) (h : ∀ u, u ≠ t → s.threads u = .outside) : OneInside s := by
  intro a b ha hb
  have h1 : a = t := Classical.byContradiction fun e => ha (h a e)
  have h2 : b = t := Classical.byContradiction fun e => hb (h b e)
  rw [h1, h2]

theorem alone_step {s s' : Shared} {a : Act} {r : List Act} (t : Nat) (h : ∀ u, u ≠ t → s.threads u = .outside) (ha : s.act a = some s')
    (hr : Alone s' r) : Alone s (a :: r) :=
  ⟨one_of_only t h, fun s'' e => by rw [ha] at e; cases e; exact hr⟩

/-- thread 1 enters `a`; while thread 2 enters `b`, thread 1 looks `a` up -/
def sample (a b : Key) (p q : Obj) : List Act := [.look 1 a, .place 1 p, .link 1, .look 2 b, .look 1 a, .place 2 q, .link 2]

theorem sample_meets (a b : Key) (p q : Obj) (T : HMap Key Obj) (hT : (⟨.node (ckey a) p .nil .nil .nil .nil, strHash, strEQ⟩ : HMap Key Obj) = T)
    (hA : T.get (ckey a) = some p) (hB : T.get (ckey b) = none) (hp : p >>> 48 = 0#64) (hq : q >>> 48 = 0#64) :
    Alone .start (sample a b p q) ∧ (Shared.start.run (sample a b p q)).map (fun s => s.results.map (·.thread)) = some [2, 1, 1] := by
  have n16 := makeNaNPtr_eq (t := TAG_SYMBOL) hp
  have n32 := makeNaNPtr_eq (t := TAG_SYMBOL) hq
  let s0 : Shared := .start
  let s1 : Shared := s0.move 1 (.missed (ckey a))
  let s2 : Shared := s1.move 1 (.placed (ckey a) p (some []))
  let s3 : Shared := { s2 with table := T }.return 1 (ckey a) (packed p TAG_SYMBOL)
  let s4 : Shared := s3.move 2 (.missed (ckey b))
  let s5 : Shared := s4.return 1 (ckey a) (packed p TAG_SYMBOL)
  let s6 : Shared := s5.move 2 (.placed (ckey b) q (some (T.root.slot (T.hash (ckey b)))))
  let T' : HMap Key Obj := { T with root := T.root.link (.node (ckey b) q .nil .nil .nil .nil) (T.root.slot (T.hash (ckey b))) }
  let s7 : Shared := { s6 with table := T' }.return 2 (ckey b) (packed q TAG_SYMBOL)
  have e0 : s0.act (.look 1 a) = some s1 := rfl
  have e1 : s1.act (.place 1 p) = some s2 := rfl
  have e2 : s2.act (.link 1) = some s3 := by
    show (makeNaNPtr p TAG_SYMBOL).map _ = _
    rw [n16]; subst hT; rfl
  have e3 : s3.act (.look 2 b) = some s4 := by
    show (match T.get (ckey b) with | some p => _ | none => _) = _
    rw [hB]
  have e4 : s4.act (.look 1 a) = some s5 := by
    show (match T.get (ckey a) with | some p => (makeNaNPtr p TAG_SYMBOL).map fun o => s4.return 1 (ckey a) o | none => _) = _
    rw [hA]
    show (makeNaNPtr p TAG_SYMBOL).map _ = _
    rw [n16]; rfl
  have e5 : s5.act (.place 2 q) = some s6 := by
    show some (s5.move 2 (.placed (ckey b) q (match T.get (ckey b) with | some _ => none | none => some (T.root.slot (T.hash (ckey b)))))) = _
    rw [hB]
  have e6 : s6.act (.link 2) = some s7 := by
    show (makeNaNPtr q TAG_SYMBOL).map _ = _
    rw [n32]; rfl
  have o1 : ∀ u, u ≠ 1 → s1.threads u = .outside := fun u hu => if_neg hu
  have o2 : ∀ u, u ≠ 1 → s2.threads u = .outside := fun u hu => (if_neg hu).trans (o1 u hu)
  have o3 : ∀ u, s3.threads u = .outside := by
    intro u
    by_cases h : u = 1
    · exact if_pos h
    · exact (if_neg h).trans (o2 u h)
  have o4 : ∀ u, u ≠ 2 → s4.threads u = .outside := fun u hu => (if_neg hu).trans (o3 u)
  have o5 : ∀ u, u ≠ 2 → s5.threads u = .outside := by
    intro u hu
    by_cases h : u = 1
    · exact if_pos h
    · exact (if_neg h).trans (o4 u hu)
  have o6 : ∀ u, u ≠ 2 → s6.threads u = .outside := fun u hu => (if_neg hu).trans (o5 u hu)
  have o7 : ∀ u, u ≠ 2 → s7.threads u = .outside := fun u hu => (if_neg hu).trans (o6 u hu)
  constructor
  · exact alone_step 1 (fun _ _ => rfl) e0 (alone_step 1 o1 e1 (alone_step 1 o2 e2 (alone_step 1 (fun u _ => o3 u) e3
      (alone_step 2 o4 e4 (alone_step 2 o5 e5 (alone_step 2 o6 e6 (one_of_only 2 o7)))))))
  · have : s0.run (sample a b p q) = some s7 := by
      simp only [sample, Shared.run, e0, e1, e2, e3, e4, e5, e6, Option.bind_some]
    show (s0.run (sample a b p q)).map _ = _
    rw [this]; rfl

example : Alone .start (sample nameA nameB 16 32) :=
  (sample_meets nameA nameB 16#64 32#64 _ rfl (by decide +kernel) (by decide +kernel) (by decide) (by decide)).1
example : addresses (sample nameA nameB 16 32) = [16, 32] := rfl
example : ([16, 32] : List Obj).Nodup := by decide
example : ∀ p ∈ ([16, 32] : List Obj), p >>> 48 = 0#64 := by
  intro p hp
  rcases List.mem_cons.mp hp with rfl | hp
  · rfl
  · cases List.mem_singleton.mp hp; rfl

/-- the hypotheses of the race -/
example : Shared.start.table.IsStr ∧ Shared.start.table.get (ckey nameA) = none ∧ (16#64 : Obj) >>> 48 = 0#64 ∧ ckey nameA ≠ ckey nameB :=
  ⟨⟨rfl, rfl⟩, rfl, by decide, by decide⟩

end Cora.Threads
