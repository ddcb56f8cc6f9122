import Verif.Model.Import
/-
C15: a package is loaded at most once, and cyclic imports end. C58: which file an import loads.
-/
namespace Cora.Import

variable {W : Type}

/-- what an import keeps: nothing is started twice, and what was started is what is imported -/
structure Inv (s : St W) : Prop where
  nodup : s.started.Nodup
  same : s.imported = s.started

/-- `s'` comes after `s` -/
def After (s s' : St W) : Prop := ∃ l, s'.started = l ++ s.started

theorem After.refl (s : St W) : After s s := ⟨[], rfl⟩

theorem After.trans {a b c : St W} (h1 : After a b) (h2 : After b c) : After a c := by
  obtain ⟨l1, e1⟩ := h1
  obtain ⟨l2, e2⟩ := h2
  exact ⟨l2 ++ l1, by rw [e2, e1, List.append_assoc]⟩

theorem runAct_inv {imp : St W → Name → Option (St W)}
    (himp : ∀ s p s', Inv s → imp s p = some s' → Inv s' ∧ After s s') :
    ∀ (a : Act W) (s s' : St W), Inv s → runAct imp a s = some s' → Inv s' ∧ After s s' := by
  intro a
  induction a with
  | done w =>
    intro s s' h hr
    simp [runAct] at hr
    subst hr
    exact ⟨⟨h.nodup, h.same⟩, [], rfl⟩
  | imp p w k ih =>
    intro s s' h hr
    unfold runAct at hr
    cases hi : imp { s with w := w } p with
    | none => rw [hi] at hr; simp at hr
    | some s1 =>
      rw [hi] at hr
      obtain ⟨g1, g2⟩ := himp { s with w := w } p s1 ⟨h.nodup, h.same⟩ hi
      obtain ⟨g3, g4⟩ := ih s1.w s1 s' g1 hr
      exact ⟨g3, After.trans g2 g4⟩

theorem importPkg_inv (load : Name → W → Act W) (n : Nat) :
    ∀ (s : St W) p s', Inv s → importPkg load n s p = some s' → Inv s' ∧ After s s' ∧ p ∈ s'.started := by
  induction n with
  | zero => intro s p s' _ h; simp [importPkg] at h
  | succ n ih =>
    intro s p s' hs h
    unfold importPkg at h
    split at h
    · rename_i hany
      injection h with h
      subst h
      refine ⟨hs, .refl _, ?_⟩
      rw [List.any_eq_true] at hany
      obtain ⟨x, hx, he⟩ := hany
      rw [← hs.same, ← eq_of_beq he]
      exact hx
    · rename_i hany
      have hnot : p ∉ s.started := by
        rw [← hs.same]
        intro hp
        exact hany (List.any_eq_true.mpr ⟨p, hp, beq_self_eq_true p⟩)
      obtain ⟨g1, l, g2⟩ := runAct_inv (fun s p s' h1 h2 => ⟨(ih s p s' h1 h2).1, (ih s p s' h1 h2).2.1⟩) (load p s.w)
        { s with imported := p :: s.imported, started := p :: s.started } s'
        ⟨List.nodup_cons.mpr ⟨hnot, hs.nodup⟩, by rw [hs.same]⟩ h
      exact ⟨g1, ⟨l ++ [p], by rw [g2]; simp⟩, by rw [g2]; simp⟩

theorem importAll_inv (load : Name → W → Act W) (n : Nat) :
    ∀ (ps : List Name) (s s' : St W), Inv s → importAll load n ps s = some s' →
      Inv s' ∧ After s s' ∧ ∀ p ∈ ps, p ∈ s'.started := by
  intro ps
  induction ps with
  | nil => intro s s' h hr; simp [importAll] at hr; subst hr; exact ⟨h, .refl _, by simp⟩
  | cons p ps ih =>
    intro s s' h hr
    unfold importAll at hr
    cases hi : importPkg load n s p with
    | none => rw [hi] at hr; simp at hr
    | some s1 =>
      rw [hi] at hr
      simp only [Option.bind_some] at hr
      obtain ⟨g1, g2, g3⟩ := importPkg_inv load n s p s1 h hi
      obtain ⟨g4, ⟨l, g5⟩, g6⟩ := ih s1 s' g1 hr
      refine ⟨g4, After.trans g2 ⟨l, g5⟩, ?_⟩
      intro q hq
      rw [List.mem_cons] at hq
      rcases hq with rfl | hq
      · rw [g5]; exact List.mem_append_right _ g3
      · exact g6 q hq

/-- C15: in any sequence of imports from the start, with any packages importing each other in any way, every package
body is started at most once, and every package asked for is started -/
theorem C15_at_most_once (load : Name → W → Act W) (n : Nat) (ps : List Name) (w : W) (s : St W)
    (h : importAll load n ps ⟨[], [], w⟩ = some s) :
    (∀ p, s.started.count p ≤ 1) ∧ (∀ p ∈ ps, s.started.count p = 1) := by
  obtain ⟨h1, _, h3⟩ := importAll_inv load n ps ⟨[], [], w⟩ s ⟨by simp, rfl⟩ h
  exact ⟨fun p => List.nodup_iff_count.mp h1.nodup p, fun p hp => by
    have := List.nodup_iff_count.mp h1.nodup p
    have := List.count_pos_iff.mpr (h3 p hp)
    omega⟩

/-- an import asked for again, however deep inside other imports, does nothing -/
theorem C15_again (load : Name → W → Act W) (n : Nat) (s : St W) (p : Name) (h : p ∈ s.imported) :
    importPkg load (n + 1) s p = some s := by
  unfold importPkg
  have hany : (s.imported.any fun x => x == p) = true := List.any_eq_true.mpr ⟨p, h, beq_self_eq_true p⟩
  exact if_pos hany

/-- the packages a load asks for directly are in `all` -/
inductive Within (all : List Name) : Act W → Prop where
  | done (w : W) : Within all (.done w)
  | imp (p : Name) (w : W) (k : W → Act W) : p ∈ all → (∀ w, Within all (k w)) → Within all (.imp p w k)

/-- the packages of `all` that are not imported yet -/
def todo (all : List Name) (s : St W) : Nat := (all.filter fun p => !s.imported.any (· == p)).length

theorem filter_le {l : List Name} {f g : Name → Bool} (h : ∀ x, f x = true → g x = true) :
    (l.filter f).length ≤ (l.filter g).length := by
  induction l with
  | nil => simp
  | cons x r ih =>
    by_cases hf : f x = true
    · simp [hf, h x hf, ih]
    · by_cases hg : g x = true
      · simp [hf, hg]; omega
      · simp [hf, hg, ih]

theorem filter_lt {l : List Name} {f g : Name → Bool} (h : ∀ x, f x = true → g x = true) {y : Name} (hy : y ∈ l)
    (h1 : g y = true) (h2 : f y = false) : (l.filter f).length < (l.filter g).length := by
  induction l with
  | nil => simp at hy
  | cons x r ih =>
    rw [List.mem_cons] at hy
    rcases hy with rfl | hy
    · have := filter_le (l := r) h
      simp [h1, h2]
      omega
    · have := ih hy
      by_cases hf : f x = true
      · simp [hf, h x hf, this]
      · by_cases hg : g x = true
        · simp [hf, hg]; omega
        · simp [hf, hg, this]

theorem todo_after {all : List Name} {s s' : St W} (h : Inv s) (h' : Inv s') (ha : After s s') :
    todo all s' ≤ todo all s := by
  apply filter_le
  intro x hx
  simp only [Bool.not_eq_true', List.any_eq_false] at hx ⊢
  intro y hy
  obtain ⟨l, e⟩ := ha
  exact hx y (by rw [h'.same, e, ← h.same]; exact List.mem_append_right _ hy)

theorem runAct_ends {imp : St W → Name → Option (St W)} {all : List Name} {N : Nat}
    (himp : ∀ s p, Inv s → p ∈ all → todo all s ≤ N → ∃ s', imp s p = some s')
    (hinv : ∀ s p s', Inv s → imp s p = some s' → Inv s' ∧ After s s') :
    ∀ (a : Act W) (s : St W), Inv s → Within all a → todo all s ≤ N → ∃ s', runAct imp a s = some s' := by
  intro a
  induction a with
  | done w => intro s _ _ _; exact ⟨_, rfl⟩
  | imp p w k ih =>
    intro s hs hw ht
    cases hw with
    | imp _ _ _ hp hk =>
      obtain ⟨s1, e1⟩ := himp { s with w := w } p ⟨hs.nodup, hs.same⟩ hp ht
      obtain ⟨g1, g2⟩ := hinv { s with w := w } p s1 ⟨hs.nodup, hs.same⟩ e1
      unfold runAct
      rw [e1]
      exact ih s1.w s1 g1 (hk _) (Nat.le_trans (todo_after (s := { s with w := w }) ⟨hs.nodup, hs.same⟩ g1 g2) ht)

theorem importPkg_ends (load : Name → W → Act W) (all : List Name) (hall : ∀ p w, Within all (load p w)) :
    ∀ n (s : St W) p, Inv s → p ∈ all → todo all s ≤ n → ∃ s', importPkg load (n + 1) s p = some s' := by
  intro n
  induction n with
  | zero =>
    intro s p hs hp ht
    unfold importPkg
    by_cases hany : s.imported.any (· == p) = true
    · exact ⟨s, if_pos hany⟩
    · have hf : p ∈ all.filter fun p => !s.imported.any (· == p) := by
        rw [List.mem_filter]
        exact ⟨hp, by simp only [hany, Bool.not_false]⟩
      have := List.length_pos_of_mem hf
      unfold todo at ht
      omega
  | succ n ih =>
    intro s p hs hp ht
    rw [importPkg]
    by_cases hany : s.imported.any (· == p) = true
    · exact ⟨s, if_pos hany⟩
    · rw [if_neg hany]
      have hnot : p ∉ s.started := by
        rw [← hs.same]
        intro hp
        exact hany (List.any_eq_true.mpr ⟨p, hp, beq_self_eq_true p⟩)
      have hs1 : Inv { s with imported := p :: s.imported, started := p :: s.started } :=
        ⟨List.nodup_cons.mpr ⟨hnot, hs.nodup⟩, by rw [hs.same]⟩
      refine runAct_ends (N := n) (fun s p h1 h2 h3 => ih s p h1 h2 h3)
        (fun s p s' h1 h2 => ⟨(importPkg_inv load _ s p s' h1 h2).1, (importPkg_inv load _ s p s' h1 h2).2.1⟩)
        (load p s.w) _ hs1 (hall p s.w) ?_
      have : todo all { s with imported := p :: s.imported, started := p :: s.started } < todo all s := by
        apply filter_lt _ hp
        · simp only [hany, Bool.not_false]
        · simp
        · intro x hx
          simp only [List.any_cons, Bool.not_eq_true', Bool.or_eq_false_iff] at hx
          simpa using hx.2
      omega

/-- C15: if there are finitely many packages, a sequence of imports ends, whatever imports whatever: `all.length + 1`
levels of nesting are enough -/
theorem C15_terminates (load : Name → W → Act W) (all : List Name) (hall : ∀ p w, Within all (load p w)) (ps : List Name)
    (hps : ∀ p ∈ ps, p ∈ all) (w : W) : ∃ s, importAll load (all.length + 1) ps ⟨[], [], w⟩ = some s := by
  have key : ∀ (ps : List Name) (s : St W), (∀ p ∈ ps, p ∈ all) → Inv s → ∃ s', importAll load (all.length + 1) ps s = some s' := by
    intro ps
    induction ps with
    | nil => intro s _ _; exact ⟨s, rfl⟩
    | cons p ps ih =>
      intro s h hs
      obtain ⟨s1, e1⟩ := importPkg_ends load all hall all.length s p hs (h p (by simp)) (List.length_filter_le _ _)
      unfold importAll
      rw [e1]
      exact ih s1 (fun q hq => h q (by simp [hq])) (importPkg_inv load _ s p s1 hs e1).1
  exact key ps _ hps ⟨by simp, rfl⟩

/-- two packages that import each other, and one that imports itself: hypotheses of `C15_terminates` and
`C15_at_most_once` -/
def cyclic : Name → Nat → Act Nat := fun p w =>
  if p = [1] then .imp [2] (w + 1) fun w => .imp [2] w .done
  else if p = [2] then .imp [1] (w + 10) .done
  else if p = [3] then .imp [3] (w + 100) .done
  else .done w

example : ∀ p w, Within [[1], [2], [3]] (cyclic p w) := by
  intro p w
  unfold cyclic
  split
  · exact .imp _ _ _ (by simp) fun w => .imp _ _ _ (by simp) fun w => .done w
  · split
    · exact .imp _ _ _ (by simp) fun w => .done w
    · split
      · exact .imp _ _ _ (by simp) fun w => .done w
      · exact .done w

example : (importAll cyclic 4 [[1], [3], [2]] ⟨[], [], 0⟩).map (fun s => (s.started, s.w)) = some ([[3], [2], [1]], 111) := by
  decide

/-! ### which file -/

/-- the bytes of a text -/
def text (s : String) : Name := s.toList.map (·.toNat.toUInt8)

/-- the two files of a package -/
def soOf (base pkg : Name) : Name := base ++ text "pkg/" ++ pkg ++ text ".so"
def srcOf (base pkg : Name) : Name := base ++ text "pkg/" ++ pkg ++ text ".cora"

theorem take_so (x : Name) : (x ++ extSo).take ((x ++ extSo).length - 3) = x := by
  have : extSo.length = 3 := by decide
  rw [List.length_append, this, Nat.add_sub_cancel, List.take_left]

/-- C58: an import loads the compiled file of the package if it is readable and not older than a readable source, and
the source file otherwise -/
theorem C58_target (f : Files) (base pkg : Name) (t : Name → Nat) (ht : ∀ p, f.readable p = true → f.mtime p = some (t p)) :
    target f base pkg =
      if f.readable (soOf base pkg) = true ∧ (f.readable (srcOf base pkg) = true → t (srcOf base pkg) ≤ t (soOf base pkg))
      then .so (soOf base pkg) else .source (srcOf base pkg) := by
  have e1 : base ++ dirPkg ++ pkg ++ extSo = soOf base pkg := rfl
  have e2 : (soOf base pkg).take ((soOf base pkg).length - 3) ++ extCora = srcOf base pkg := by
    show (base ++ dirPkg ++ pkg ++ extSo).take ((base ++ dirPkg ++ pkg ++ extSo).length - 3) ++ extCora = base ++ dirPkg ++ pkg ++ extCora
    rw [take_so]
  unfold target safeToUseSo
  simp only [e1, e2]
  by_cases h1 : f.readable (soOf base pkg) = true
  · by_cases h2 : f.readable (srcOf base pkg) = true
    · simp only [h1, h2, ht _ h1, ht _ h2]
      by_cases h3 : t (srcOf base pkg) ≤ t (soOf base pkg)
      · simp [h3, Nat.not_lt.mpr h3]
      · simp [h3, Nat.lt_of_not_le h3]
    · simp [h1, h2]
  · simp [h1]

example : ∃ (f : Files) (t : Name → Nat), (∀ p, f.readable p = true → f.mtime p = some (t p)) ∧
    target f [47] [97] = .source (srcOf [47] [97]) ∧ f.readable (soOf [47] [97]) = true :=
  ⟨⟨fun _ => true, fun p => some p.length⟩, fun p => p.length, fun _ _ => rfl, by decide, rfl⟩

end Cora.Import
