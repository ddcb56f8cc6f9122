import Verif.Props.GC
/- Lemmas for C32: marking terminates and garbage is reclaimed. -/
namespace Cora.GC
variable [Layout]
set_option linter.unusedSectionVars false

/-! ### frames of marking -/

theorem markObject_cases {s s' : St} {x minv} (h : markObject s x minv = some s') :
    s' = s ∨ (∃ v, s' = s.setVersion x v) ∨ (∃ v, s' = bump s x v) := by
  unfold markObject at h
  split at h
  · simp only at h
    split at h
    · cases minv with
      | none => cases h; exact .inl rfl
      | some m =>
        simp only at h
        split at h
        · cases h; exact .inr (.inl ⟨_, rfl⟩)
        · cases h; exact .inl rfl
    · split at h
      · cases hr : nextVersion (s.obj x).version.gen s.version with
        | none => rw [hr] at h; simp at h
        | some r1 =>
          rw [hr] at h
          simp only [Option.map_some, Option.bind_eq_bind, Option.bind_some] at h
          repeat' split at h
          all_goals (cases h; first | exact .inl rfl | exact .inr (.inr ⟨_, rfl⟩))
      · simp only [Option.bind_eq_bind, Option.bind_some] at h
        repeat' split at h
        all_goals (cases h; first | exact .inl rfl | exact .inr (.inr ⟨_, rfl⟩))
  · simp at h

theorem gcMark_cases {s s' : St} {x minv} (h : gcMark s x minv = some s') :
    s' = s ∨ (∃ v, s' = s.setVersion x v) ∨ (∃ v, s' = bump s x v) := by
  unfold gcMark at h
  split at h
  · exact markObject_cases h
  · cases h; exact .inl rfl

theorem gcMark_frame {s s' : St} {x minv} (h : gcMark s x minv = some s') (y) (hy : y ≠ x) :
    s'.obj y = s.obj y ∧ (y ∈ s'.gray ↔ y ∈ s.gray) := by
  rcases gcMark_cases h with rfl | ⟨v, rfl⟩ | ⟨v, rfl⟩
  · exact ⟨rfl, Iff.rfl⟩
  · simp [St.setVersion, St.setObj, upd, hy]
  · simp [bump, St.setTouch, St.setVersion, St.setObj, upd, hy]

theorem markAll_frame (minv) (l : List (Option SlotId)) {s s' : St} (h : markAll s minv l = some s') (y)
    (hy : some y ∉ l) : s'.obj y = s.obj y ∧ (y ∈ s'.gray ↔ y ∈ s.gray) := by
  induction l generalizing s with
  | nil => cases h; exact ⟨rfl, Iff.rfl⟩
  | cons o r ih =>
    cases o with
    | none => exact ih h (by simpa using hy)
    | some x =>
      simp only [markAll, Option.bind_eq_bind] at h
      cases e : gcMark s x minv with
      | none => rw [e] at h; simp at h
      | some s1 =>
        rw [e] at h
        simp only [Option.bind_some] at h
        have hne : y ≠ x := fun e => hy (by simp [e])
        have h1 := gcMark_frame e y hne
        have h2 := ih h (fun hh => hy (by simp [hh]))
        exact ⟨h2.1.trans h1.1, h2.2.trans h1.2⟩

theorem gcRSetLoop_frame (l : List SlotId) {s s' : St} (kept) (hb : Base s) (h : gcRSetLoop s kept l = some s') (y)
    (hy : ∀ p ∈ l, vcmp s.version (s.obj p).version.ver < 0 → some y ∉ (s.obj p).kids)
    (hp : ∀ p ∈ l, off s p = 0) : s'.obj y = s.obj y ∧ (y ∈ s'.gray ↔ y ∈ s.gray) ∧ s'.rset = kept.reverse := by
  induction l generalizing s kept with
  | nil => cases h; exact ⟨rfl, Iff.rfl, rfl⟩
  | cons p r ih =>
    unfold gcRSetLoop at h
    have hc := vcmp_V s.version (s.obj p).version.ver (hb.ver p) (by
      have := hp p (by simp); unfold off at this; omega)
    have hz := hp p (by simp)
    unfold off at hz
    rw [if_pos (by omega)] at h
    exact ih kept hb h (fun q hq => hy q (by simp [hq])) (fun q hq => hp q (by simp [hq]))

/-! ### the potential -/

def pot (s : St) (x : SlotId) : Nat := 2 * (24 - off s x)

def potSum (s : St) (U : List SlotId) : Nat := (U.map (pot s)).sum

def M (s : St) (U : List SlotId) : Nat := potSum s U + s.gray.length

theorem sum_mono {f g : SlotId → Nat} (U : List SlotId) (h : ∀ x ∈ U, f x ≤ g x) :
    (U.map f).sum ≤ (U.map g).sum := by
  induction U with
  | nil => simp
  | cons a r ih =>
    have h1 := h a (by simp)
    have h2 := ih (fun x hx => h x (by simp [hx]))
    simp only [List.map_cons, List.sum_cons]; omega

theorem sum_drop {f g : SlotId → Nat} (U : List SlotId) (h : ∀ x ∈ U, f x ≤ g x) (x) (hx : x ∈ U) (k)
    (hk : f x + k ≤ g x) : (U.map f).sum + k ≤ (U.map g).sum := by
  induction U with
  | nil => simp at hx
  | cons a r ih =>
    simp only [List.map_cons, List.sum_cons]
    have ha := h a (by simp)
    rcases List.mem_cons.mp hx with rfl | hx
    · have := sum_mono r (fun y hy => h y (by simp [hy])); omega
    · have := ih (fun y hy => h y (by simp [hy])) hx; omega

theorem sum_raise {f g : SlotId → Nat} (U : List SlotId) (hn : U.Nodup) (x) (k) (h : ∀ y ∈ U, y ≠ x → f y ≤ g y)
    (hk : f x ≤ g x + k) : (U.map f).sum ≤ (U.map g).sum + k := by
  induction U with
  | nil => simp
  | cons a r ih =>
    obtain ⟨hn1, hn2⟩ := List.nodup_cons.mp hn
    simp only [List.map_cons, List.sum_cons]
    by_cases e : a = x
    · subst e
      have := sum_mono r (fun y hy => h y (by simp [hy]) (fun e => hn1 (e ▸ hy)))
      omega
    · have := h a (by simp) e
      have := ih hn2 (fun y hy => h y (by simp [hy]))
      omega

theorem pot_evolve {s s' : St} (e : Evolve s s') (x) : pot s' x ≤ pot s x := by
  have := e.off_le x; unfold pot; omega

theorem gcMark_pot {s s' : St} {x minv} (hb : Base s) (hm : ∀ m, minv = some m → MinvOk s.version m)
    (h : gcMark s x minv = some s') (U) (hU : ∀ y, (s.obj y).used = true → y ∈ U) : M s' U ≤ M s U := by
  obtain ⟨s'', e, m, -⟩ := gcMark_spec s x minv hb hm
  rw [h] at e; cases e
  have hp := pot_evolve m.ev
  rcases gcMark_cases h with rfl | ⟨v, rfl⟩ | ⟨v, rfl⟩
  · exact Nat.le_refl _
  · have := sum_mono U (fun y _ => hp y)
    unfold M potSum
    have hg : (s.setVersion x v).gray = s.gray := rfl
    rw [hg]; omega
  · have hg : (bump s x v).gray = s.gray ++ [x] := rfl
    have hxg : x ∉ s.gray := by
      have := m.base.nodup
      rw [hg] at this
      intro hx
      exact (List.nodup_append.mp this).2.2 x hx x (by simp) rfl
    rcases m.ev.change x with hc | hc
    · exfalso
      have := (m.base.odd x).mpr (by rw [hg]; simp)
      rw [hc] at this
      exact hxg ((hb.odd x).mp this)
    · have hu : (s.obj x).used = true := by
        rw [← m.ev.used]; exact (m.base.gray x hc.2).1
      have h23 := (m.base.gray x hc.2).2
      have := sum_drop U (fun y _ => hp y) x (hU x hu) 1 (by unfold pot; omega)
      unfold M potSum
      rw [hg, List.length_append, List.length_singleton]
      omega

theorem markAll_pot (minv) (l : List (Option SlotId)) {s s' : St} (hb : Base s)
    (hm : ∀ m, minv = some m → MinvOk s.version m) (h : markAll s minv l = some s') (U)
    (hU : ∀ y, (s.obj y).used = true → y ∈ U) : M s' U ≤ M s U := by
  induction l generalizing s with
  | nil => cases h; exact Nat.le_refl _
  | cons o r ih =>
    cases o with
    | none => exact ih hb hm h hU
    | some x =>
      simp only [markAll, Option.bind_eq_bind] at h
      obtain ⟨s1, e, m, -⟩ := gcMark_spec s x minv hb hm
      rw [e] at h
      simp only [Option.bind_some] at h
      have h1 := gcMark_pot hb hm e U hU
      have h2 := ih m.base (by intro m' e'; rw [m.ev.version]; exact hm m' e') h
        (by intro y hy; rw [m.ev.used] at hy; exact hU y hy)
      omega

/-- processing a gray object strictly lowers the potential -/
theorem process_pot {s s' : St} (hb : Base s) (x rest) (hg : s.gray = x :: rest)
    (h : gcRunIncremental1 s = some s') (U) (hU : ∀ y, (s.obj y).used = true → y ∈ U) : M s' U + 1 ≤ M s U := by
  have hxg : x ∈ s.gray := by rw [hg]; simp
  have hxodd := (hb.odd x).mpr hxg
  have hxo := hb.gray x hxg
  have hminv : ∀ m, some (s.obj x).version = some m → MinvOk s.version m := by
    intro m e; cases e; exact ⟨hxodd, hb.ver x, hb.gen x, hxo.2⟩
  obtain ⟨s1, e1, m1, -⟩ := markAll_spec (some (s.obj x).version) (s.obj x).kids s hb hminv
  have hp1 := markAll_pot _ _ hb hminv e1 U hU
  have hcomm := markAll_gray [x] (some (s.obj x).version) (s.obj x).kids { s with gray := rest }
  have hs : ({ ({ s with gray := rest } : St) with gray := [x] ++ rest } : St) = s := by
    cases s; simp at hg; subst hg; rfl
  simp only at hcomm
  rw [show ({ phase := s.phase, version := s.version, obj := s.obj, gray := [x] ++ rest, rset := s.rset, nslots := s.nslots, curr := s.curr, listed := s.listed, touch := s.touch } : St) = s from hs, e1] at hcomm
  cases e0 : markAll { s with gray := rest } (some (s.obj x).version) (s.obj x).kids with
  | none => rw [e0] at hcomm; simp at hcomm
  | some s0 =>
    rw [e0] at hcomm
    simp only [Option.map_some, Option.some.injEq] at hcomm
    have hrun : gcRunIncremental1 s = some (s0.setVersion x ⟨(s0.obj x).version.gen, ((s0.obj x).version.ver + 1) % 64⟩) := by
      unfold gcRunIncremental1
      rw [hg]
      simp only [hxodd, if_true, e0, Option.bind_eq_bind, Option.bind_some]
    rw [hrun] at h; cases h
    have o1 : s1.obj = s0.obj := by rw [hcomm]
    have v1 : s1.version = s0.version := by rw [hcomm]
    have g1 : s1.gray.length = s0.gray.length + 1 := by rw [hcomm]; simp
    rw [← o1]
    generalize hs2 : s0.setVersion x ⟨(s1.obj x).version.gen, ((s1.obj x).version.ver + 1) % 64⟩ = s2
    have hg2 : s2.gray = s0.gray := by subst hs2; rfl
    have hx1 : s1.obj x = s.obj x := m1.keep x hxodd (by intro m e; cases e; exact Nat.le_refl _)
    have hsum : (U.map (pot s2)).sum ≤ (U.map (pot s1)).sum := by
      apply sum_mono
      intro y _
      have hv2 : s2.version = s1.version := by subst hs2; exact v1.symm
      by_cases e : y = x
      · subst e
        have h1 : off s1 y ≤ 23 := by
          have : off s1 y = off s y := off_eq hx1 m1.ev.version
          omega
        have : off s1 y ≤ off s2 y := by
          unfold off offV at h1 ⊢
          rw [hv2]
          subst hs2
          simp only [St.setVersion, St.setObj, upd, if_true]
          have := m1.base.ver y
          omega
        unfold pot; omega
      · have : s2.obj y = s1.obj y := by subst hs2; simp [St.setVersion, St.setObj, upd, e, o1]
        unfold pot; rw [off_eq this hv2]; exact Nat.le_refl _
    unfold M potSum at *
    rw [hg2]
    omega

theorem M_bound (s : St) (U : List SlotId) (hb : Base s) (hU : ∀ y, (s.obj y).used = true → y ∈ U) :
    M s U ≤ 49 * U.length := by
  have h1 : potSum s U ≤ 48 * U.length := by
    unfold potSum
    clear hU
    induction U with
    | nil => simp
    | cons a r ih => simp only [List.map_cons, List.sum_cons, List.length_cons]; unfold pot at *; omega
  have h2 : s.gray.length ≤ U.length :=
    hb.nodup.length_le_of_subset (fun x hx => hU x (hb.gray x hx).1)
  unfold M; omega

end Cora.GC
