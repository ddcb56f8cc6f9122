import Verif.Model.Files
import Verif.Props.Strings
/-
C89: opening a file for writing.
-/
open Spec Spec.Files
namespace Cora.Files

/-- the names, with the one being read -/
def flush (st : List Name × Name) : List Name := if st.2 = [] then st.1 else st.1 ++ [st.2]

theorem names_flush (s : Bytes) : names s = flush (walk ([], []) s) := rfl

theorem walk_append : ∀ (a b : Bytes) (st : List Name × Name), walk st (a ++ b) = walk (walk st a) b
  | [], _, _ => rfl
  | c :: a, b, (_, _) => by simp only [List.cons_append, walk]; exact walk_append a b _

theorem walk_name : ∀ (n : Bytes) (done : List Name) (cur : Name), 47 ∉ n → walk (done, cur) n = (done, cur ++ n)
  | [], _, _, _ => by simp [walk]
  | c :: n, done, cur, h => by
    simp only [List.mem_cons, not_or] at h
    rw [walk, if_neg (fun e => h.1 e.symm), walk_name n done _ h.2]
    simp

theorem walk_slash (s : Bytes) : walk ([], []) (s ++ [47]) = (names s, []) := by
  rw [walk_append, names_flush, flush]
  cases h : walk ([], []) s with
  | mk done cur =>
    simp only [walk, if_true]
    split <;> simp_all

theorem walk_other (s : Bytes) {c : Byte} (h : c ≠ 47) : (walk ([], []) (s ++ [c])).1 = (walk ([], []) s).1 := by
  rw [walk_append]
  cases walk ([], []) s with
  | mk done cur => simp [walk, h]

theorem names_path {s : Bytes} {ns : List Name} (h : Path s ns) : names s = ns := by
  induction h with
  | nil => rfl
  | @slash s ns _ ih => rw [names_flush, walk_slash, ih]; simp [flush]
  | @first n h1 h2 => rw [names_flush, walk_name n [] [] h2]; simp [flush, h1]
  | @name s ns n _ h1 h2 ih => rw [names_flush, walk_append, walk_slash, walk_name n _ _ h2, ih]; simp [flush, h1]

/-- `S'` is `S` with the directories on the way to `D`, and `D` -/
structure Made (S : Sys) (D : Place) (S' : Sys) : Prop where
  cwd : S'.cwd = S.cwd
  deny : S'.deny = S.deny
  file : S'.tree.file = S.tree.file
  dir : ∀ d, S'.tree.dir d ↔ S.tree.dir d ∨ d <+: D

theorem up {t : Tree} (h : t.Sound) {D : Place} (hD : t.dir D) {d : Place} (hd : d <+: D) : t.dir d := by
  obtain ⟨r, rfl⟩ := hd
  have : ∀ (r : List Name) (d : Place), t.dir (d ++ r.reverse) → t.dir d := by
    intro r
    induction r with
    | nil => intro d hd; simpa using hd
    | cons n r ih => intro d hd; simp only [List.reverse_cons, ← List.append_assoc] at hd; exact ih d (h.up _ _ hd)
  exact this r.reverse d (by simpa using hD)

theorem mkdir_new {S : Sys} {s : Bytes} {p : Place} (hp : S.place s = p) (h : s ≠ [] ∧ p ≠ [] ∧ S.tree.dir p.dropLast ∧ ¬ S.tree.dir p ∧
    S.tree.file p = none ∧ ¬ S.deny p) : S.mkdir s = { S with tree := { S.tree with dir := fun d => S.tree.dir d ∨ d = p } } := by
  subst hp
  unfold Sys.mkdir
  exact if_pos h

theorem mkdir_old {S : Sys} {s : Bytes} {p : Place} (hp : S.place s = p) (h : ¬ (s ≠ [] ∧ p ≠ [] ∧ S.tree.dir p.dropLast ∧ ¬ S.tree.dir p ∧
    S.tree.file p = none ∧ ¬ S.deny p)) : S.mkdir s = S := by
  subst hp
  unfold Sys.mkdir
  exact if_neg h

theorem fopen_ok {S : Sys} {s : Bytes} {p : Place} (hp : S.place s = p) (h : s ≠ [] ∧ s.getLast? ≠ some 47 ∧ p ≠ [] ∧ S.tree.dir p.dropLast ∧
    ¬ S.tree.dir p ∧ ¬ S.deny p) :
    S.fopen s = some (p, { S with tree := { S.tree with file := fun q => if q = p then some [] else S.tree.file q } }) := by
  subst hp
  unfold Sys.fopen
  exact if_pos h

theorem fopen_fails {S : Sys} {s : Bytes} {p : Place} (hp : S.place s = p) (h : ¬ S.tree.dir p.dropLast) : S.fopen s = none := by
  subst hp
  unfold Sys.fopen
  exact if_neg fun hh => h hh.2.2.2.1

theorem made_mkdir {S S' : Sys} {base done : Place} {cur : Name} (h : Made S (base ++ done) S') {pre : Bytes} (hpre : pre ≠ [])
    (hp : S'.place pre = base ++ flush (done, cur)) (hfile : ∀ d, d <+: base ++ flush (done, cur) → S.tree.file d = none)
    (hdeny : ∀ d, d <+: base ++ flush (done, cur) → ¬ S.deny d) : Made S (base ++ flush (done, cur)) (S'.mkdir pre) := by
  unfold flush at *
  by_cases hc : cur = []
  · subst hc
    simp only [if_true] at hp hfile hdeny ⊢
    rw [mkdir_old hp (fun hh => hh.2.2.2.1 ((h.dir _).mpr (.inr (List.prefix_refl _))))]
    exact h
  · simp only [if_neg hc] at hp hfile hdeny ⊢
    have hlast : (base ++ (done ++ [cur])).dropLast = base ++ done := by rw [← List.append_assoc]; simp
    have hpc : ∀ d : Place, d <+: base ++ (done ++ [cur]) ↔ d = base ++ (done ++ [cur]) ∨ d <+: base ++ done := fun d => by
      rw [← List.append_assoc]; exact List.prefix_concat_iff
    by_cases hex : S'.tree.dir (base ++ (done ++ [cur]))
    · rw [mkdir_old hp fun hh => hh.2.2.2.1 hex]
      refine ⟨h.cwd, h.deny, h.file, fun d => ?_⟩
      rw [h.dir, hpc]
      constructor
      · rintro (h1 | h1)
        · exact .inl h1
        · exact .inr (.inr h1)
      · rintro (h1 | rfl | h1)
        · exact .inl h1
        · exact (h.dir _).mp hex
        · exact .inr h1
    · rw [mkdir_new hp ⟨hpre, by simp, by rw [hlast]; exact (h.dir _).mpr (.inr (List.prefix_refl _)), hex,
        by rw [h.file]; exact hfile _ (List.prefix_refl _), by rw [h.deny]; exact hdeny _ (List.prefix_refl _)⟩]
      exact ⟨h.cwd, h.deny, h.file, fun d => by
        show S'.tree.dir d ∨ d = _ ↔ _
        rw [h.dir, hpc]
        grind⟩

theorem walk_prefix (a b : Bytes) : flush (walk ([], []) a) <+: flush (walk ([], []) (a ++ b)) ∨
    (walk ([], []) a).1 <+: flush (walk ([], []) (a ++ b)) := by
  right
  rw [walk_append]
  have : ∀ (b : Bytes) (st : List Name × Name), st.1 <+: flush (walk st b) := by
    intro b
    induction b with
    | nil =>
      intro st
      show st.1 <+: if st.2 = [] then st.1 else st.1 ++ [st.2]
      by_cases hc : st.2 = []
      · rw [if_pos hc]; exact List.prefix_refl _
      · rw [if_neg hc]; exact List.prefix_append _ _
    | cons c b ih =>
      intro st
      obtain ⟨done, cur⟩ := st
      simp only [walk]
      refine List.IsPrefix.trans ?_ (ih _)
      split
      · split
        · exact List.prefix_refl _
        · exact List.prefix_append _ _
      · exact List.prefix_refl _
  exact this b _

theorem names_slash_prefix (a b : Bytes) : names a <+: names (a ++ 47 :: b) := by
  have := walk_prefix (a ++ [47]) b
  rw [walk_slash] at this
  simp only [flush, if_true] at this
  rw [names_flush (a ++ 47 :: b), show a ++ 47 :: b = a ++ [47] ++ b by simp]
  rcases this with h | h <;> exact h

theorem made_loop {S : Sys} {base : Place} {head : Option Byte} (hbase : base = if head = some 47 then [] else S.cwd) {full : Bytes}
    (hfile : ∀ d, d <+: base ++ names full → S.tree.file d = none) (hdeny : ∀ d, d <+: base ++ names full → ¬ S.deny d) :
    ∀ (rest pre : Bytes) {S' : Sys}, pre ++ rest = full → pre ≠ [] → pre.head? = head → Made S (base ++ (walk ([], []) pre).1) S' →
      Made S (base ++ (walk ([], []) full).1) (mkdirLoop S' pre rest)
  | [], pre, S', he, _, _, h => by simp only [List.append_nil] at he; subst he; exact h
  | c :: rest, pre, S', he, hne, hh, h => by
    rw [mkdirLoop]
    refine made_loop hbase hfile hdeny rest (pre ++ [c]) (by simpa using he) (by simp) (by
      cases pre with
      | nil => exact absurd rfl hne
      | cons a r => simpa using hh) ?_
    split
    · rename_i hc
      subst hc
      rw [walk_slash]
      have hp : ∀ d, d <+: base ++ names pre → d <+: base ++ names full := fun d hd =>
        hd.trans (by rw [← he]; exact List.prefix_append_right_inj _ |>.mpr (names_slash_prefix pre rest))
      refine made_mkdir (cur := (walk ([], []) pre).2) h hne ?_ (fun d hd => hfile d (hp d hd)) (fun d hd => hdeny d (hp d hd))
      rw [Sys.place, hh, h.cwd, ← hbase]
      rfl
    · rename_i hc
      rw [walk_other pre hc]
      exact h

theorem made_refl {S : Sys} (hs : S.tree.Sound) {D : Place} (hD : S.tree.dir D) : Made S D S :=
  ⟨rfl, rfl, rfl, fun d => ⟨.inl, fun h => h.elim id (up hs hD)⟩⟩

theorem names_one (c : Byte) : (walk ([], []) [c]).1 = [] := by
  simp only [walk]
  split <;> simp

/-- `mkdirP` makes the directory and those above it -/
theorem made_mkdirP {S : Sys} (hs : S.tree.Sound) (hcwd : S.tree.dir S.cwd) {path : Bytes} (hlen : path.length ≤ 1023) (hne : path ≠ [])
    (hfile : ∀ d, d <+: S.place path → S.tree.file d = none) (hdeny : ∀ d, d <+: S.place path → ¬ S.deny d) :
    Made S (S.place path) (mkdirP S path) := by
  unfold mkdirP
  rw [List.take_of_length_le hlen]
  simp only
  generalize htmp : (if path.getLast? = some 47 then path.dropLast else path) = tmp
  have hbase : S.tree.dir (if path.head? = some 47 then [] else S.cwd) := by
    split
    · exact hs.root
    · exact hcwd
  have hcases : tmp = path ∨ path = tmp ++ [47] := by
    split at htmp
    · rename_i hl
      right
      obtain ⟨ys, rfl⟩ := List.getLast?_eq_some_iff.mp hl
      rw [← htmp]
      simp
    · exact .inl htmp.symm
  have hnames : names tmp = names path := by
    rcases hcases with h | h
    · rw [h]
    · rw [h, names_flush (tmp ++ [47]), walk_slash]; simp [flush]
  cases htc : tmp with
  | nil =>
    simp only
    rw [mkdir_old rfl (fun h => h.1 rfl)]
    refine made_refl hs ?_
    rw [Sys.place, ← hnames, htc]
    simpa [names, walk] using hbase
  | cons c r =>
    have hhead : path.head? = some c := by
      rcases hcases with h | h
      · rw [← h, htc]; rfl
      · rw [h, htc]; rfl
    have hplace : S.place path = (if some c = some 47 then [] else S.cwd) ++ names (c :: r) := by
      rw [Sys.place, hhead, ← hnames, htc]
    simp only
    rw [hhead] at hbase
    rw [hplace] at hfile hdeny ⊢
    have h1 := made_loop (S := S) (head := some c) rfl (full := c :: r) hfile hdeny r [c] (S' := S) rfl (by simp) rfl (by
      rw [names_one, List.append_nil]
      exact made_refl hs hbase)
    refine made_mkdir (cur := (walk ([], []) (c :: r)).2) h1 (by simp) ?_ hfile hdeny
    rw [Sys.place, h1.cwd]
    rfl

/-- **C89**. A path leads to a place; none of the directories on the way is a file, the place is no directory, and the system refuses nothing.
Then the file is opened, empty, the missing directories are made, and nothing else in the file system changes. (Paths longer than 1024 bytes
are false of the code: `C89_long_path_wrong`.) -/
theorem C89_open_partial {S : Sys} (hs : S.tree.Sound) (hcwd : S.tree.dir S.cwd) {path : Bytes} {p : Place} (hl : Leads S.cwd path p)
    (hend : path.getLast? ≠ some 47) (hne : path ≠ []) (hlen : path.length ≤ 1024) (hfile : ∀ d, Above d p → S.tree.file d = none)
    (hdir : ¬ S.tree.dir p) (hdeny : ∀ d, Above d p ∨ d = p → ¬ S.deny d) :
    ∃ S', openOutputFile S path = (some p, S') ∧ Opened S.tree p S'.tree ∧ S'.tree.Sound ∧ S'.cwd = S.cwd := by
  obtain ⟨ns, hpath, rfl⟩ := hl
  have hn := names_path hpath
  generalize hbase : (if path.head? = some 47 then [] else S.cwd) = base at *
  have hbd : S.tree.dir base := by
    rw [← hbase]
    split
    · exact hs.root
    · exact hcwd
  -- the last name
  obtain ⟨s1, n, ns1, e1, e2, e3, e4⟩ : ∃ s n ns1, ns = ns1 ++ [n] ∧ n ≠ [] ∧ 47 ∉ n ∧
      ((path = n ∧ ns1 = []) ∨ (path = s ++ [47] ++ n ∧ names s = ns1)) := by
    cases hpath with
    | nil => exact absurd rfl hne
    | slash => simp at hend
    | first h1 h2 => exact ⟨[], _, [], rfl, h1, h2, .inl ⟨rfl, rfl⟩⟩
    | @name s ns n h0 h1 h2 => exact ⟨s, n, ns, rfl, h1, h2, .inr ⟨rfl, names_path h0⟩⟩
  subst e1
  have habove : ∀ d : Place, Above d (base ++ (ns1 ++ [n])) ↔ d <+: base ++ ns1 := by
    intro d
    constructor
    · rintro ⟨a, r, h⟩
      have : d <+: base ++ ns1 ++ [n] := ⟨a :: r, by rw [List.append_assoc]; exact h.symm⟩
      rcases List.prefix_concat_iff.mp this with h1 | h1
      · have := congrArg List.length h
        rw [h1] at this
        simp at this
      · exact h1
    · rintro ⟨r, h⟩
      rw [← List.append_assoc, ← h]
      cases r with
      | nil => exact ⟨n, [], by simp⟩
      | cons a r => exact ⟨a, r ++ [n], by simp⟩
  -- after making the directories
  obtain ⟨S1, hS1, hmade⟩ : ∃ S1, (if strRchr path 47 > 0 then mkdirP S (path.take (strRchr path 47).toNat) else S) = S1 ∧
      Made S (base ++ ns1) S1 := by
    rcases e4 with ⟨rfl, rfl⟩ | ⟨e4, e5⟩
    · refine ⟨S, ?_, made_refl hs (by simpa using hbd)⟩
      rw [if_neg]
      rcases (C07_strChr_strRchr path 47).2 with ⟨k, _, h2, _⟩ | ⟨h, _⟩
      · exact absurd (List.mem_of_getElem? h2) e3
      · rw [h]; decide
    · have hr : strRchr path 47 = s1.length := by
        rcases (C07_strChr_strRchr path 47).2 with ⟨k, h1, h2, h3⟩ | ⟨_, h⟩
        · rw [h1]
          have : ¬ k < s1.length := fun hlt => h3 s1.length hlt (by rw [e4]; simp)
          have : ¬ s1.length < k := fun hlt => by
            rw [e4, List.getElem?_append_right (by simp; omega)] at h2
            exact e3 (List.mem_of_getElem? h2)
          congr 1
          omega
        · exact absurd (by rw [e4]; simp) h
      rw [hr]
      by_cases hz : s1 = []
      · subst hz
        refine ⟨S, by simp, made_refl hs ?_⟩
        have : ns1 = [] := by rw [← e5]; rfl
        rw [this]
        simpa using hbd
      · have hpos : (s1.length : Int) > 0 := by have := List.length_pos_iff.mpr hz; omega
        rw [if_pos hpos]
        have htake : path.take (s1.length : Int).toNat = s1 := by rw [e4]; simp
        rw [htake]
        have hpl : S.place s1 = base ++ ns1 := by
          rw [Sys.place, e5, ← hbase, e4]
          cases s1 with
          | nil => exact absurd rfl hz
          | cons a r => rfl
        have := made_mkdirP hs hcwd (path := s1) (by rw [e4] at hlen; simp at hlen; omega) hz
          (fun d hd => hfile d ((habove d).mpr (by rw [← hpl]; exact hd)))
          (fun d hd => hdeny d (.inl ((habove d).mpr (by rw [← hpl]; exact hd))))
        rw [hpl] at this
        exact ⟨_, rfl, this⟩
  have hplace : S1.place path = base ++ (ns1 ++ [n]) := by rw [Sys.place, hmade.cwd, hn, hbase]
  have hlast : (base ++ (ns1 ++ [n])).dropLast = base ++ ns1 := by rw [← List.append_assoc]; simp
  have hnd : ¬ S1.tree.dir (base ++ (ns1 ++ [n])) := by
    rw [hmade.dir]
    rintro (h | h)
    · exact hdir h
    · have := h.length_le
      simp at this
      omega
  have hopen : S1.fopen path = some (base ++ (ns1 ++ [n]), { S1 with tree := { S1.tree with
      file := fun q => if q = base ++ (ns1 ++ [n]) then some [] else S1.tree.file q } }) := by
    refine fopen_ok hplace ⟨hne, hend, by simp, ?_, hnd, ?_⟩
    · rw [hlast]; exact (hmade.dir _).mpr (.inr (List.prefix_refl _))
    · rw [hmade.deny]; exact hdeny _ (.inr rfl)
  refine ⟨{ S1 with tree := { S1.tree with file := fun q => if q = base ++ (ns1 ++ [n]) then some [] else S1.tree.file q } }, ?_,
    ⟨?_, if_pos rfl, ?_⟩, ⟨?_, ?_, ?_, ?_⟩, hmade.cwd⟩
  · show (match Sys.fopen (if strRchr path 47 > 0 then mkdirP S (path.take (strRchr path 47).toNat) else S) path with
      | some (p, S) => (some p, S)
      | none => (none, if strRchr path 47 > 0 then mkdirP S (path.take (strRchr path 47).toNat) else S)) = _
    rw [hS1, hopen]
  · intro d
    show S1.tree.dir d ↔ _
    rw [hmade.dir, habove]
  · intro q hq
    show (if q = _ then some [] else S1.tree.file q) = _
    rw [if_neg hq, hmade.file]
  · exact (hmade.dir _).mpr (.inl hs.root)
  · intro d a hd
    rcases (hmade.dir _).mp hd with h | h
    · exact (hmade.dir _).mpr (.inl (hs.up _ _ h))
    · exact (hmade.dir _).mpr (.inr ((List.prefix_append _ _).trans h))
  · intro d a hd
    show S1.tree.dir d
    simp only at hd
    split at hd
    · rename_i h
      rw [← List.append_assoc] at h
      have := (List.append_inj' h rfl).1
      rw [this]
      exact (hmade.dir _).mpr (.inr (List.prefix_refl _))
    · rw [hmade.file] at hd
      exact (hmade.dir _).mpr (.inl (hs.upFile _ _ hd))
  · intro d hd
    show (if d = _ then some [] else S1.tree.file d) = none
    have hd : S1.tree.dir d := hd
    rw [if_neg (fun h : d = base ++ (ns1 ++ [n]) => hnd (h ▸ hd)), hmade.file]
    rcases (hmade.dir _).mp hd with h | h
    · exact hs.one _ h
    · exact hfile d ((habove d).mpr h)

/-! ### cases -/

/-- a file system with a root directory and a file `f` in it -/
def someTree : Tree := { dir := fun d => d = [], file := fun q => if q = [[102]] then some [1, 2] else none }

theorem someTree_sound : someTree.Sound where
  root := rfl
  up := by intro p n h; simp [someTree] at h
  upFile := by
    intro p n h
    simp only [someTree] at h
    split at h
    · rename_i h1
      cases p with
      | nil => rfl
      | cons a r => simp at h1
    · simp at h
  one := by intro p h; simp only [someTree] at h; subst h; rfl

/-- `a//b/c`, from the root: `a` and `a/b` are made, the other file stays -/
example : ∃ S', openOutputFile ⟨someTree, [], fun _ => False⟩ [97, 47, 47, 98, 47, 99] = (some [[97], [98], [99]], S') ∧
    Opened someTree [[97], [98], [99]] S'.tree ∧ S'.tree.dir [[97], [98]] ∧ S'.tree.file [[102]] = some [1, 2] := by
  have hp : Path [97, 47, 47, 98, 47, 99] [[97], [98], [99]] :=
    Path.name (s := [97, 47, 47, 98]) (Path.name (s := [97, 47]) (Path.slash (.first (n := [97]) (by decide) (by decide))) (n := [98])
      (by decide) (by decide)) (n := [99]) (by decide) (by decide)
  obtain ⟨S', h1, h2, -⟩ := C89_open_partial (S := ⟨someTree, [], fun _ => False⟩) someTree_sound rfl ⟨_, hp, rfl⟩ (by decide) (by decide)
    (by decide) (by
      rintro d ⟨n, r, h⟩
      simp only [someTree]
      rw [if_neg]
      rintro rfl
      simp at h) (by simp [someTree]) (fun _ _ h => h)
  refine ⟨S', h1, h2, (h2.dirs _).mpr (.inr ⟨[99], [], rfl⟩), ?_⟩
  rw [h2.rest _ (by decide)]
  rfl

theorem walk_length : ∀ (s : Bytes) (st : List Name × Name), (flush (walk st s)).length ≤ (flush st).length + s.length
  | [], st => by simp [walk]
  | c :: s, (done, cur) => by
    simp only [walk]
    refine Nat.le_trans (walk_length s _) ?_
    have : (flush (if c = 47 then (if cur = [] then (done, []) else (done ++ [cur], [])) else (done, cur ++ [c]))).length ≤
        (flush (done, cur)).length + 1 := by
      unfold flush
      by_cases hc : c = 47 <;> by_cases hd : cur = [] <;> simp [hc, hd]
    simp only [List.length_cons]
    omega

theorem place_length (S : Sys) (s : Bytes) : (S.place s).length ≤ S.cwd.length + s.length := by
  have := walk_length s ([], [])
  rw [← names_flush] at this
  simp only [Sys.place, List.length_append]
  have h0 : (flush (([], []) : List Name × Name)).length = 0 := rfl
  split
  · simp only [List.length_nil]; omega
  · omega

/-- only places up to a depth are new -/
def Shallow (S : Sys) (k : Nat) (S' : Sys) : Prop := S'.cwd = S.cwd ∧ ∀ d, S'.tree.dir d → S.tree.dir d ∨ d.length ≤ S.cwd.length + k

theorem shallow_mkdir {S S' : Sys} {k : Nat} (h : Shallow S k S') {s : Bytes} (hs : s.length ≤ k) : Shallow S k (S'.mkdir s) := by
  unfold Sys.mkdir
  simp only
  split
  · refine ⟨h.1, fun d hd => ?_⟩
    rcases hd with hd | rfl
    · exact h.2 d hd
    · have := place_length S' s
      rw [h.1] at this
      exact .inr (by omega)
  · exact h

theorem shallow_loop {S : Sys} {k : Nat} : ∀ (r pre : Bytes) {S' : Sys}, Shallow S k S' → pre.length + r.length ≤ k → Shallow S k (mkdirLoop S' pre r)
  | [], _, _, h, _ => h
  | c :: r, pre, S', h, hk => by
    rw [mkdirLoop]
    simp only [List.length_cons] at hk
    refine shallow_loop r _ ?_ (by simp; omega)
    split
    · exact shallow_mkdir h (by omega)
    · exact h

theorem shallow_mkdirP (S : Sys) (path : Bytes) : Shallow S 1023 (mkdirP S path) := by
  unfold mkdirP
  simp only
  generalize htmp : (if (path.take 1023).getLast? = some 47 then (path.take 1023).dropLast else path.take 1023) = tmp
  have hl : tmp.length ≤ 1023 := by
    rw [← htmp]
    split <;> simp <;> omega
  refine shallow_mkdir ?_ hl
  cases tmp with
  | nil => exact ⟨rfl, fun d h => .inl h⟩
  | cons c r => exact shallow_loop r [c] ⟨rfl, fun d h => .inl h⟩ (by simpa [Nat.add_comm] using hl)

/-- **C89** is false of long paths: the path of the directory is cut at 1023 bytes. If the directory is to be made and more than 1023 names
below the working directory, the file is not opened, although the system refuses nothing. -/
theorem C89_long_path_wrong {S : Sys} {path : Bytes} {p : Place} (hl : Leads S.cwd path p) (hdir : ¬ S.tree.dir p.dropLast)
    (hlong : S.cwd.length + 1024 < p.length) : (openOutputFile S path).1 = none := by
  obtain ⟨ns, hpath, rfl⟩ := hl
  have hn := names_path hpath
  have key : Shallow S 1023 (if strRchr path 47 > 0 then mkdirP S (path.take (strRchr path 47).toNat) else S) := by
    split
    · exact shallow_mkdirP _ _
    · exact ⟨rfl, fun d h => .inl h⟩
  unfold openOutputFile
  simp only
  generalize (if strRchr path 47 > 0 then mkdirP S (path.take (strRchr path 47).toNat) else S) = S1 at key
  rw [fopen_fails (p := (if path.head? = some 47 then [] else S.cwd) ++ ns) (by rw [Sys.place, hn, key.1])]
  intro h
  rcases key.2 _ h with h | h
  · exact hdir h
  · rw [List.length_dropLast] at h
    omega

/-- `a/a/…/a` -/
def longPath : Nat → Bytes
  | 0 => [97]
  | k + 1 => longPath k ++ [47] ++ [97]

theorem longPath_path : ∀ k, Path (longPath k) (List.replicate (k + 1) [97])
  | 0 => .first (by decide) (by decide)
  | k + 1 => by
    rw [List.replicate_succ']
    exact .name (longPath_path k) (by decide) (by decide)

theorem longPath_head : ∀ k, (longPath k).head? = some 97
  | 0 => rfl
  | k + 1 => by
    have := longPath_head k
    rw [longPath]
    cases h : longPath k with
    | nil => rw [h] at this; cases this
    | cons a r => rw [h] at this; simpa using this

theorem longPath_length : ∀ k, (longPath k).length = 2 * k + 1
  | 0 => rfl
  | k + 1 => by simp [longPath, longPath_length k]; omega

/-- some are shorter than 4096 bytes, the limit of Linux -/
example {k : Nat} (h : 1024 ≤ k) (h' : k ≤ 2047) : (openOutputFile ⟨someTree, [], fun _ => False⟩ (longPath k)).1 = none ∧
    (longPath k).length < 4096 :=
  ⟨C89_long_path_wrong (p := List.replicate (k + 1) [97]) ⟨_, longPath_path k, by rw [longPath_head]; rfl⟩
    (by
      simp only [someTree, List.dropLast_replicate, List.replicate_eq_nil_iff]
      omega) (by simp only [List.length_nil, List.length_replicate]; omega), by rw [longPath_length]; omega⟩

end Cora.Files
