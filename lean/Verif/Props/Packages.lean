import Verif.Lemmas.Packages
/-
C104: a library finds its own variables in every machine.
-/
namespace Cora.Pkg
open Spec Spec.Pkg

/-- C104 (a). For all libraries, all threads and all orders of their steps in which no two threads give libraries their numbers at the same time:
in every machine that has loaded a library, each variable that the library names is found and holds the last value that this thread has set for
that very name (undefined if there is none), whatever other libraries and threads have done; it can be set through the library; and a thread that is
about to give its machine the table of a library can do so. The full claim has no condition on the order: (c), (d). -/
theorem C104_own_variables_partial (tables : Nat → List Key) (hist : List Act) (s : State) (hs : run tables State.start hist = some s)
    (one : OneByOne tables State.start hist) (t : Nat) :
    (∀ l ∈ loaded t none hist, ∀ (slot : Nat) (k : Key), (tables l)[slot]? = some k →
      load s t l slot = some (value tables hist t k) ∧
      (s.at' t = .outside → ∀ v, ∃ s', step tables s (.store t l slot v) = some s')) ∧
    (∀ l, s.at' t = .table l → ∃ s', step tables s (.finish t) = some s') := by
  obtain ⟨cur, inv, hv⟩ := run_inv hist (Inv.start tables) one hs
  refine ⟨?_, ?_⟩
  · intro l hl slot k hk
    cases hm : s.machine t with
    | none =>
      have := (inv.fresh t hm).2
      simp only [List.nil_append] at this
      rw [this] at hl; cases hl
    | some m =>
      have hg := inv.good t m hm
      obtain ⟨i, h1, h2⟩ := hg.found inv.inj (l := l) (by simpa using hl) hk
      refine ⟨?_, ?_⟩
      · have hb := hg.inv.bound _ _ h2
        have e := hv t k
        simp only [State.val, hm, Globals.val, h2, State.start, List.getElem?_eq_getElem hb, Option.getD_some] at e
        simp only [load, hm, Option.bind_some, h1, globalRef, List.getElem?_eq_getElem hb, value, e]
      · intro ho v
        obtain ⟨g, r1, _⟩ := primSet_spec hg.inv (.interned k) v
        simp only [step, ho, hm, h1, Option.bind_some, r1, Option.map_some]
        exact ⟨_, rfl⟩
  · intro l ho
    obtain ⟨m, hm⟩ := inv.machine (t := t) (by rw [ho]; nofun)
    have hok := inv.ok t
    rw [ho] at hok
    obtain ⟨p, e, _⟩ := addPackage_spec (pkgs := m.pkgs) (t := (bindAll m.globals (tables l)).2) hok
    simp only [step, ho, hm, e, Option.map_some]
    exact ⟨_, rfl⟩

theorem step_outside {tables} {t0 : Nat} {a : Act} {s s' : State} (h : ∀ u l, a = .enter u l → u = t0) (h' : step tables s a = some s')
    {u : Nat} (hu : u ≠ t0) (hu' : s.at' u = .outside) : s'.at' u = .outside := by
  cases a with
  | make t =>
    simp only [step] at h'
    split at h'
    · cases h'; exact hu'
    · cases h'
  | enter t l =>
    have : t = t0 := h t l rfl
    simp only [step] at h'
    split at h'
    · cases h'
      simp [State.move, show u ≠ t by omega, hu']
    · cases h'
  | read t =>
    simp only [step] at h'
    split at h'
    · cases h'
      rename_i l ho
      have : u ≠ t := by rintro rfl; rw [hu'] at ho; cases ho
      simp [State.move, this, hu']
    · cases h'
  | write t =>
    simp only [step] at h'
    split at h'
    · cases h'
      rename_i l v ho
      have : u ≠ t := by rintro rfl; rw [hu'] at ho; cases ho
      simp [State.move, this, hu']
    · cases h'
  | assign t =>
    simp only [step] at h'
    split at h'
    · cases h'
      rename_i l v ho
      have : u ≠ t := by rintro rfl; rw [hu'] at ho; cases ho
      simp [State.move, this, hu']
    · cases h'
  | finish t =>
    simp only [step] at h'
    split at h'
    · rename_i l m ho hm
      obtain ⟨p, _, rfl⟩ := Option.map_eq_some_iff.mp h'
      have : u ≠ t := by rintro rfl; rw [hu'] at ho; cases ho
      simp [State.move, State.put, this, hu']
    · cases h'
  | op t o =>
    simp only [step] at h'
    split at h'
    · obtain ⟨p, _, rfl⟩ := Option.map_eq_some_iff.mp h'
      exact hu'
    · cases h'
  | store t l slot v =>
    simp only [step] at h'
    split at h'
    · obtain ⟨b, _, h2⟩ := Option.bind_eq_some_iff.mp h'
      obtain ⟨p, _, rfl⟩ := Option.map_eq_some_iff.mp h2
      exact hu'
    · cases h'

theorem run_outside {tables} (t0 : Nat) (hist : List Act) {s s' : State} (h : ∀ u l, .enter u l ∈ hist → u = t0)
    (hr : run tables s hist = some s') (hs : ∀ u, u ≠ t0 → s.at' u = .outside) : ∀ u, u ≠ t0 → s'.at' u = .outside := by
  induction hist generalizing s with
  | nil => cases hr; exact hs
  | cons a r ih =>
    obtain ⟨s1, h1, h2⟩ := Option.bind_eq_some_iff.mp hr
    exact ih (fun u l hm => h u l (List.mem_cons_of_mem _ hm)) h2
      (fun u hu => step_outside (fun v l e => h v l (by simp [e])) h1 hu (hs u hu))

theorem one_numbering {t0 : Nat} {s : State} (hs : ∀ u, u ≠ t0 → s.at' u = .outside) (t u : Nat) (a : Numbering s t) (b : Numbering s u) :
    t = u := by
  have key : ∀ t, Numbering s t → t = t0 := by
    rintro t ⟨l, h⟩
    refine Classical.byContradiction fun e => ?_
    rw [hs t e] at h
    simp at h
  exact (key t a).trans (key u b).symm

theorem only_one {tables} (t0 : Nat) (hist : List Act) {s : State} (h : ∀ u l, .enter u l ∈ hist → u = t0)
    (hs : ∀ u, u ≠ t0 → s.at' u = .outside) : OneByOne tables s hist := by
  induction hist generalizing s with
  | nil => unfold OneByOne; exact ⟨one_numbering hs, trivial⟩
  | cons a r ih =>
    unfold OneByOne
    exact ⟨one_numbering hs, fun s' h' => ih (fun u l hm => h u l (List.mem_cons_of_mem _ hm))
      (fun u hu => step_outside (fun v l e => h v l (by simp [e])) h' hu (hs u hu))⟩

theorem OneByOne.append {tables} (a b : List Act) {s : State} (h : OneByOne tables s a)
    (h' : ∀ s', run tables s a = some s' → OneByOne tables s' b) : OneByOne tables s (a ++ b) := by
  induction a generalizing s with
  | nil => exact h' s rfl
  | cons x r ih =>
    unfold OneByOne at h
    rw [List.cons_append]
    unfold OneByOne
    exact ⟨h.1, fun s1 h1 => ih (h.2 s1 h1) (fun s' hr => h' s' (by simp [run, h1, hr]))⟩

/-- C104 (b). In particular, for a program in which one thread loads all libraries, in any order and any number of times: each of them finds its own
variables, with the last values set. -/
theorem C104_one_loader (tables : Nat → List Key) (hist : List Act) (s : State) (hs : run tables State.start hist = some s) (t : Nat)
    (only : ∀ u l, .enter u l ∈ hist → u = t) (l : Nat) (hl : l ∈ loaded t none hist) (slot : Nat) (k : Key)
    (hk : (tables l)[slot]? = some k) : load s t l slot = some (value tables hist t k) :=
  ((C104_own_variables_partial tables hist s hs (only_one t hist only fun _ _ => rfl) t).1 l hl slot k hk).1

/-! ## Examples and what goes wrong -/

abbrev nameA : Key := ⟨[97], by decide⟩
abbrev nameB : Key := ⟨[98], by decide⟩

/-- library 0 mentions `a`, library 1 mentions `b` and `a`, the others nothing -/
def mentions : Nat → List Key
  | 0 => [nameA]
  | 1 => [nameB, nameA]
  | _ => []

/-- thread `t` loads library `l` for the first time, undisturbed -/
def first (t l : Nat) : List Act := [.enter t l, .read t, .write t, .assign t, .finish t]

/-- one thread loads two libraries, sets variables by name and through a library -/
def quiet : List Act :=
  [.make 0] ++ first 0 0 ++ first 0 1 ++ [.op 0 (.set (.interned nameA) 5#64), .store 0 1 0 6#64, .store 0 1 1 7#64]

/-- non-vacuity: library 0 sees what library 1 has put into `a` -/
example : ∃ s, run mentions State.start quiet = some s ∧ loaded 0 none quiet = [0, 1] ∧
    (∀ u l, .enter u l ∈ quiet → u = 0) ∧ OneByOne mentions State.start quiet ∧
    load s 0 0 0 = some 7#64 ∧ load s 0 1 0 = some 6#64 ∧ value mentions quiet 0 nameA = 7#64 := by
  have h : ∀ u l, .enter u l ∈ quiet → u = 0 := by
    intro u l; simp [quiet, first]; omega
  have hs : (run mentions State.start quiet).isSome := by decide +kernel
  obtain ⟨s, hs⟩ := Option.isSome_iff_exists.mp hs
  have v1 : value mentions quiet 0 nameA = 7#64 := by decide +kernel
  have v2 : value mentions quiet 0 nameB = 6#64 := by decide +kernel
  exact ⟨s, hs, by decide, h, only_one 0 _ h fun _ _ => rfl, v1 ▸ C104_one_loader mentions quiet s hs 0 h 0 (by decide) 0 nameA rfl,
    v2 ▸ C104_one_loader mentions quiet s hs 0 h 1 (by decide) 0 nameB rfl, v1⟩

/-- a second thread loads the same two libraries later, in the other order, and sets its own `a` -/
def later : List Act := [.make 1, .enter 1 1, .finish 1, .enter 1 0, .finish 1, .store 1 0 0 9#64]

/-- non-vacuity of (a) with two threads: each sees its own `a` -/
example : ∃ s, run mentions State.start (quiet ++ later) = some s ∧ OneByOne mentions State.start (quiet ++ later) ∧
    loaded 0 none (quiet ++ later) = [0, 1] ∧ loaded 1 none (quiet ++ later) = [1, 0] ∧
    load s 0 0 0 = some 7#64 ∧ load s 1 1 1 = some 9#64 := by
  have h : ∀ u l, .enter u l ∈ quiet → u = 0 := by
    intro u l; simp [quiet, first]; omega
  have h1 : ∀ u l, .enter u l ∈ later → u = 1 := by
    intro u l; simp [later]; omega
  have ho : ((run mentions State.start quiet).map fun s => (s.at' 0).lib) = some none := by decide +kernel
  have one : OneByOne mentions State.start (quiet ++ later) := by
    refine OneByOne.append _ _ (only_one 0 _ h fun _ _ => rfl) fun s' hr => only_one 1 _ h1 fun u _ => ?_
    by_cases e : u = 0
    · subst e
      rw [hr] at ho
      simp only [Option.map_some, Option.some.injEq] at ho
      cases hw : s'.at' 0 <;> rw [hw] at ho <;> first | rfl | cases ho
    · exact run_outside 0 quiet h hr (fun _ _ => rfl) u e
  have hs : (run mentions State.start (quiet ++ later)).isSome := by decide +kernel
  obtain ⟨s, hs⟩ := Option.isSome_iff_exists.mp hs
  have v1 : value mentions (quiet ++ later) 0 nameA = 7#64 := by decide +kernel
  have v2 : value mentions (quiet ++ later) 1 nameA = 9#64 := by decide +kernel
  exact ⟨s, hs, one, by decide, by decide,
    v1 ▸ ((C104_own_variables_partial mentions _ s hs one 0).1 0 (by decide) 0 nameA rfl).1,
    v2 ▸ ((C104_own_variables_partial mentions _ s hs one 1).1 1 (by decide) 1 nameA rfl).1⟩

/-- two threads load different libraries at the same time, then the first loads the second library too -/
def twoLibraries : List Act :=
  [.make 0, .make 1, .enter 0 0, .enter 1 1, .read 0, .read 1, .write 0, .write 1, .assign 0, .assign 1, .finish 0, .finish 1,
    .op 0 (.set (.interned nameA) 5#64), .op 0 (.set (.interned nameB) 6#64), .enter 0 1, .finish 0]

/-- C104 (c), the claim is false when two threads load different libraries at the same time: both get the same number, and in a machine that
has loaded both, the code of the first reads the variable `b`, 6, where it says `a`, which is 5. -/
theorem C104_two_libraries_wrong : ∃ s, run mentions State.start twoLibraries = some s ∧ s.ids 0 = s.ids 1 ∧
    loaded 0 none twoLibraries = [0, 1] ∧ (mentions 0)[0]? = some nameA ∧ value mentions twoLibraries 0 nameA = 5#64 ∧
    load s 0 0 0 = some 6#64 := by
  have h : ((run mentions State.start twoLibraries).map fun s => (decide (s.ids 0 = s.ids 1), load s 0 0 0)) = some (true, some 6#64) := by
    decide +kernel
  obtain ⟨s, hs, e⟩ := Option.map_eq_some_iff.mp h
  simp only [Prod.mk.injEq, decide_eq_true_eq] at e
  exact ⟨s, hs, e.1, by decide, rfl, by decide +kernel, e.2⟩

/-- two threads load the same library at the same time; the second is slower -/
def sameLibrary : List Act :=
  [.make 0, .make 1, .enter 0 0, .enter 1 0, .read 0, .write 0, .assign 0, .finish 0, .op 0 (.set (.interned nameA) 5#64),
    .read 1, .write 1, .assign 1, .finish 1]

/-- C104 (d), the claim is false when two threads load the same library at the same time: the library gets a second number, and its code in the first
thread, where the variable `a` was found and held 5, now reads outside of the table. -/
theorem C104_same_library_wrong : ∃ s s', run mentions State.start (sameLibrary.take 9) = some s ∧ load s 0 0 0 = some 5#64 ∧
    run mentions s (sameLibrary.drop 9) = some s' ∧ loaded 0 none sameLibrary = [0] ∧ value mentions sameLibrary 0 nameA = 5#64 ∧
    load s' 0 0 0 = none := by
  have h : ((run mentions State.start (sameLibrary.take 9)).bind fun s =>
      (run mentions s (sameLibrary.drop 9)).map fun s' => (load s 0 0 0, load s' 0 0 0)) = some (some 5#64, none) := by
    decide +kernel
  obtain ⟨s, hs, e⟩ := Option.bind_eq_some_iff.mp h
  obtain ⟨s', hs', e⟩ := Option.map_eq_some_iff.mp e
  simp only [Prod.mk.injEq] at e
  exact ⟨s, s', hs, e.1, hs', by decide, by decide +kernel, e.2⟩

end Cora.Pkg
