import Verif.Lemmas.AllocInv
/-
The invariant of the allocator holds in all histories.
-/
namespace Cora.Alloc
open Spec.Alloc
open Cora.GC (upd vcmp sizeClass getSlotBySize MEM_BLOCK_SIZE)

/-! ### arenas in which the objects keep their places -/

theorem tiles_retile {a b : LArena} (hl : ∀ t, Tile a t → lslots (b.head t) = lslots (a.head t)) (hb : ∀ x, b.base x = a.base x)
    {i j : Nat} (h : Tiles a i j) : Tiles a 0 i → Tiles a j a.idx → Tiles b i j := by
  induction h with
  | nil => exact fun _ _ => .nil _
  | @cons i j h1 h2 h3 ih =>
    intro h0 hj
    have hle := tiles_le h3
    have hle' := tiles_le hj
    have ht : Tile a i := ⟨h0, .cons h1 h2 (tiles_trans h3 hj), by omega⟩
    refine .cons ?_ ?_ ?_ <;> rw [hl i ht]
    · exact h1
    · intro x hx hx'
      rw [hb]
      exact h2 x hx hx'
    · exact ih (tiles_trans h0 (.cons h1 h2 (.nil _))) hj

/-- the objects keep their places -/
structure Retile (a b : LArena) : Prop where
  id : b.id = a.id
  idx : b.idx = a.idx
  slots : ∀ t, Tile a t → lslots (b.head t) = lslots (a.head t)
  base : ∀ x, b.base x = a.base x

theorem Retile.tile {a b : LArena} (h : Retile a b) {t : Nat} (ht : Tile a t) : Tile b t := by
  refine ⟨tiles_retile h.slots h.base ht.1 (.nil _) ht.2.1, ?_, by rw [h.idx]; exact ht.2.2⟩
  rw [h.idx]
  exact tiles_retile h.slots h.base ht.2.1 ht.1 (.nil _)

theorem Retile.tiles {a b : LArena} (h : Retile a b) {i j : Nat} (ht : Tiles a i j) (hi : Tiles a 0 i) (hj : Tiles a j a.idx) : Tiles b i j :=
  tiles_retile h.slots h.base ht hi hj

theorem Retile.inv {a b : LArena} (h : Retile a b) (hc : b.curr = a.curr) (hi : LInv a) : LInv b :=
  ⟨by rw [hc]; exact h.tiles hi.before (.nil _) hi.after, by rw [hc, h.idx]; exact h.tiles hi.after hi.before (.nil _),
   by rw [h.idx]; exact hi.bound⟩

theorem retile_curr (a : LArena) (c : Nat) : Retile a { a with curr := c } := ⟨rfl, rfl, fun _ _ => rfl, fun _ => rfl⟩

theorem marked_lslots {gv : Nat} {h h' : Head} (hm : Marked gv h h') : lslots h' = lslots h := by
  simp only [lslots, hm.2.2.1, hm.2.2.2.1, hm.2.2.2.2]

theorem retile_env {gv : Nat} {a b : LArena} (h : EnvLarge gv a b) : Retile a b := by
  refine ⟨h.id, h.idx, fun t ht => ?_, fun x => by rw [h.base]⟩
  rcases h.head t ht with e | e
  · rw [e]
  · exact marked_lslots e

theorem stale {gv : Nat} {h : Head} (hv : h.ver % 64 = (gv + 62) % 64) : inuse gv h = false := by
  have h1 := vcmp_prev (gv + 62) h.ver hv
  have h2 : vcmp gv h.ver = vcmp (gv + 62 + 2) h.ver := by
    unfold vcmp
    rw [show (gv + 62 + 2) % 64 = gv % 64 by omega]
  simp only [inuse, Bool.and_eq_false_iff, decide_eq_false_iff_not]
  right
  omega

theorem sweepFrom_spec {gv : Nat} : ∀ (n : Nat) (a : LArena) (j : Nat) (b : LArena), sweepFrom gv n a j = some b → Tiles a 0 j → Tiles a j a.idx →
    Retile a b ∧ b.curr = a.curr ∧ ∀ t, Tile a t → inuse gv (a.head t) = true → b.head t = a.head t
  | 0, _, _, _, h, _, _ => by simp [sweepFrom] at h
  | n + 1, a, j, b, h, h0, h1 => by
    rw [sweepFrom] at h
    by_cases hj : j < a.idx
    · rw [if_pos hj] at h
      obtain ⟨f1, f2, f3⟩ := tiles_first h1 hj
      have hj0 : Tiles a 0 (j + lslots (a.head j)) := tiles_trans h0 (.cons f1 f2 (.nil _))
      rw [if_pos f1] at h
      split at h
      · rename_i hs
        have hr : Retile a ((a.setFree j (lslots (a.head j))).meta j (lslots (a.head j)) j) := by
          refine ⟨rfl, rfl, fun t _ => ?_, fun x => ?_⟩
          · simp only [LArena.meta, LArena.setFree]
            by_cases ht : t = j
            · subst ht; rw [upd_same, free_lslots]
            · rw [upd_other _ _ ht]
          · simp only [LArena.meta, LArena.setFree]
            split
            · rename_i hx; exact (f2 x hx.1 hx.2).symm
            · rfl
        obtain ⟨k1, k2, k3⟩ := sweepFrom_spec n _ _ _ h (hr.tiles hj0 (.nil _) f3) (hr.tiles f3 hj0 (.nil _))
        refine ⟨⟨k1.id.trans hr.id, k1.idx.trans hr.idx, fun t ht => (k1.slots t (hr.tile ht)).trans (hr.slots t ht),
          fun x => (k1.base x).trans (hr.base x)⟩, k2, fun t ht hu => ?_⟩
        have hne : t ≠ j := by
          rintro rfl
          rw [stale hs.2] at hu
          simp at hu
        have he : ((a.setFree j (lslots (a.head j))).meta j (lslots (a.head j)) j).head t = a.head t := by
          simp only [LArena.meta, LArena.setFree, upd_other _ _ hne]
        exact (k3 t (hr.tile ht) (by rw [he]; exact hu)).trans he
      · exact sweepFrom_spec n _ _ _ h hj0 f3
    · rw [if_neg hj] at h
      cases h
      exact ⟨⟨rfl, rfl, fun _ _ => rfl, fun _ => rfl⟩, rfl, fun _ _ _ => rfl⟩

/-! ### the steps -/

theorem map_id_eq {l : List LArena} {f : LArena → LArena} (h : ∀ a ∈ l, (f a).id = a.id) : (l.map f).map (·.id) = l.map (·.id) := by
  rw [List.map_map]
  exact List.map_congr_left h

theorem inv_env {s s' : Heap} (hi : Inv s) (h : Env s s') : Inv s' := by
  obtain ⟨f, hf1, hf2, hf3⟩ := h.large
  have happ : s'.large ++ s'.parked = (s.large ++ s.parked).map f := by rw [hf1, hf2, List.map_append]
  refine ⟨?_, ?_, ?_, ?_, ?_, ?_, ?_, ?_, ?_, ?_⟩
  · intro slot k hk
    rw [h.lists] at hk
    rw [h.cls]
    exact hi.listed slot k hk
  · intro k hk
    rw [h.cls] at hk ⊢
    rw [h.nblocks, h.curr]
    exact hi.made k hk
  · intro k hk
    rw [h.cls] at hk ⊢
    exact hi.table k hk
  · intro k hk
    rw [h.free, h.gray] at hk
    have := hi.idle k hk
    rw [h.nblocks]
    refine ⟨this.1, ?_⟩
    have h1 := h.cls k
    have h2 := h.curr k
    have h3 := h.touch k
    rw [this.2] at h1 h2 h3
    cases hb : s'.blk k with
    | mk c u t =>
      rw [hb] at h1 h2 h3
      simp only [ne_eq, not_true_eq_false, false_and, or_false] at h1 h2 h3
      rw [h1, h2, h3]
  · rw [h.free, h.gray]; exact hi.nodup
  · intro k hk
    rw [h.free] at hk
    have hg : k ∉ s.gray := by
      have := hi.nodup
      rw [List.nodup_append] at this
      exact fun hg => this.2.2 k hk k hg rfl
    rw [h.idle k (by rw [(hi.idle k (.inl hk)).2]) hg]
    exact hi.zero k hk
  · intro k hk
    rw [h.nblocks] at hk
    have hg : k ∉ s.gray := fun hg => by
      have := (hi.idle k (.inr hg)).1
      omega
    have hc : (s.blk k).cls = 0 := Classical.not_not.mp fun hc => by
      have := (hi.made k hc).1
      omega
    rw [h.idle k hc hg]
    exact hi.unmade k hk
  · intro k hk ht off hd hfit hu
    rw [h.cls] at hk hd hfit
    rw [h.gv] at hu ⊢
    have ht0 : (s.blk k).touch = false := by
      rcases h.touch k with e | e
      · rw [← e]; exact ht
      · rw [e.2] at ht; simp at ht
    rcases h.head k off hk hd hfit with e | e | e
    · rw [e] at hu ⊢
      exact hi.untouched k hk ht0 off hd hfit hu
    · rw [e.1] at ht; simp at ht
    · simp [inuse, e.2] at hu
  · intro a ha
    rw [happ, List.mem_map] at ha
    obtain ⟨b, hb, rfl⟩ := ha
    have h1 := hi.large b hb
    have h2 := hf3 b hb
    exact ⟨(retile_env h2).inv h2.curr h1.1, by rw [h2.id, h.made]; exact h1.2⟩
  · rw [happ, map_id_eq fun a ha => (hf3 a ha).id]
    exact hi.ids

theorem live_env {s s' : Heap} (hi : Inv s) (h : Env s s') {r : Region} (hr : Live s r) : Live s' r := by
  obtain ⟨f, hf1, hf2, hf3⟩ := h.large
  rcases hr with ⟨k, off, hr, rfl⟩ | ⟨a, t, hr, rfl⟩
  · refine .inl ⟨k, off, ⟨by rw [h.cls]; exact hr.cls, by rw [h.cls]; exact hr.dvd, by rw [h.cls]; exact hr.fits, ?_⟩, by rw [h.cls]⟩
    rw [h.gv]
    rcases h.head k off hr.cls hr.dvd hr.fits with e | e | e
    · rw [e]; exact hr.used
    · exact e.2.2.1
    · rw [hr.used] at e; simp at e
  · have h2 := hf3 a hr.mem
    have h3 := retile_env h2
    refine .inr ⟨f a, t, ⟨?_, h3.tile hr.tile, ?_⟩, by rw [h2.id, h3.slots t hr.tile]⟩
    · rw [hf1, hf2, ← List.map_append]
      exact List.mem_map_of_mem hr.mem
    · rw [h.gv]
      rcases h2.head t hr.tile with e | e
      · rw [e]; exact hr.used
      · exact e.2.1

theorem inv_grayGet {s s' : Heap} (hi : Inv s) (h : grayGet s = some s') : Inv s' ∧ ∀ r, Live s r → Live s' r := by
  obtain ⟨s1, b, h1, h2, h3, h4, h5, h6, h7, h8, h9, _⟩ := freshBlock_spec hi
  rw [grayGet, h1] at h
  simp only [Option.some.injEq] at h
  subst h
  refine ⟨⟨h2.listed, h2.made, h2.table, ?_, ?_, h2.zero, h2.unmade, h2.untouched, h2.large, h2.ids⟩, fun r hr => ?_⟩
  · intro k hk
    have : k = b ∨ k ∈ s1.free ∨ k ∈ s1.gray := by
      simp only [List.mem_cons] at hk
      grind
    rcases this with rfl | hk
    · exact ⟨h5, h4⟩
    · exact h2.idle k hk
  · simp only
    refine (List.perm_middle.nodup_iff).mpr (List.nodup_cons.mpr ⟨?_, h2.nodup⟩)
    simp [h7, h8]
  · rcases h3.live hr with ⟨k, off, hl, e⟩ | ⟨a, t, hl, e⟩
    · exact .inl ⟨k, off, ⟨hl.cls, hl.dvd, hl.fits, hl.used⟩, e⟩
    · exact .inr ⟨a, t, ⟨hl.mem, hl.tile, hl.used⟩, e⟩

theorem inv_grayPut {s : Heap} {b : Nat} (hi : Inv s) (hb : b ∈ s.gray) : Inv (grayPut s b) ∧ ∀ r, Live s r → Live (grayPut s b) r := by
  have hbi := hi.idle b (.inr hb)
  have hnd := hi.nodup
  refine ⟨⟨hi.listed, hi.made, hi.table, ?_, ?_, ?_, ?_, ?_, hi.large, hi.ids⟩, fun r hr => ?_⟩
  · intro k hk
    refine hi.idle k ?_
    simp only [grayPut, List.mem_cons] at hk
    rcases hk with (rfl | hk) | hk
    · exact .inr hb
    · exact .inl hk
    · exact .inr (List.mem_of_mem_erase hk)
  · simp only [grayPut]
    have hp : (s.gray).Perm (b :: s.gray.erase b) := List.perm_cons_erase hb
    have : (s.free ++ s.gray).Perm (b :: (s.free ++ s.gray.erase b)) :=
      (List.Perm.append_left _ hp).trans List.perm_middle
    rw [this.nodup_iff] at hnd
    exact hnd
  · intro k hk off
    simp only [grayPut, List.mem_cons] at hk ⊢
    by_cases hkb : k = b
    · subst hkb; rw [upd_same]
    · rw [upd_other _ _ hkb]
      exact hi.zero k (hk.resolve_left hkb) off
  · intro k hk off
    simp only [grayPut] at hk ⊢
    have hkb : k ≠ b := by omega
    rw [upd_other _ _ hkb]
    exact hi.unmade k hk off
  · intro k hk
    have hkb : k ≠ b := by
      rintro rfl
      simp only [grayPut, hbi.2] at hk
      exact hk rfl
    simp only [grayPut, upd_other _ _ hkb]
    exact hi.untouched k hk
  · rcases hr with ⟨k, off, hr, rfl⟩ | ⟨a, t, hr, rfl⟩
    · refine .inl ⟨k, off, ⟨hr.cls, hr.dvd, hr.fits, ?_⟩, rfl⟩
      have hkb : k ≠ b := by
        rintro rfl
        have := hr.cls
        rw [hbi.2] at this
        exact this rfl
      simp only [grayPut, upd_other _ _ hkb]
      exact hr.used
    · exact .inr ⟨a, t, ⟨hr.mem, hr.tile, hr.used⟩, rfl⟩

theorem inv_sweep {s : Heap} {front rest : List LArena} {a a' : LArena} {n : Nat} (hi : Inv s) (hl : s.large = front ++ a :: rest)
    (h : sweepFrom s.gv n a a.curr = some a') :
    Inv { s with large := front ++ a' :: rest } ∧ ∀ r, Live s r → Live { s with large := front ++ a' :: rest } r := by
  have ha := hi.large a (by simp [hl])
  obtain ⟨h1, h2, h3⟩ := sweepFrom_spec n a a.curr a' h ha.1.before ha.1.after
  refine ⟨⟨hi.listed, hi.made, hi.table, hi.idle, hi.nodup, hi.zero, hi.unmade, hi.untouched, ?_, ?_⟩, fun r hr => ?_⟩
  · intro b hb
    have : b = a' ∨ b ∈ s.large ++ s.parked := by
      rw [hl]
      simp only [List.mem_append, List.mem_cons] at hb ⊢
      grind
    rcases this with rfl | hb
    · exact ⟨h1.inv h2 ha.1, by rw [h1.id]; exact ha.2⟩
    · exact hi.large b hb
  · have := hi.ids
    rw [hl] at this
    simp only [List.map_append, List.map_cons, h1.id] at this ⊢
    exact this
  · rcases hr with ⟨k, off, hr, rfl⟩ | ⟨b, t, hr, rfl⟩
    · exact .inl ⟨k, off, ⟨hr.cls, hr.dvd, hr.fits, hr.used⟩, rfl⟩
    · have hm := hr.mem
      have : b = a ∨ b ∈ (front ++ a' :: rest) ++ s.parked := by
        rw [hl] at hm
        simp only [List.mem_append, List.mem_cons] at hm ⊢
        grind
      rcases this with rfl | hm
      · refine .inr ⟨a', t, ⟨by simp, h1.tile hr.tile, ?_⟩, by rw [h1.id, h1.slots t hr.tile]⟩
        rw [h3 t hr.tile hr.used]
        exact hr.used
      · exact .inr ⟨b, t, ⟨hm, hr.tile, hr.used⟩, rfl⟩

theorem inv_step {s s' : Heap} (hi : Inv s) (h : Step s s') : Inv s' ∧ ∀ r, Live s r → Live s' r := by
  cases h with
  | env h => exact ⟨inv_env hi h, fun r hr => live_env hi h hr⟩
  | grayGet h => exact inv_grayGet hi h
  | grayPut h => exact inv_grayPut hi h
  | sweep hl h => exact inv_sweep hi hl h

/-! ### the flip -/

theorem kept_listed {s : Heap} (hi : Inv s) {slot k : Nat} (h : k ∈ s.lists slot) : kept s k = true := by
  simp only [kept, Bool.or_eq_true, List.any_eq_true, List.mem_range, List.contains_iff_mem]
  right
  refine ⟨slot, ?_, h⟩
  have := (List.getElem?_eq_some_iff.mp (hi.listed slot k h).2.1).1
  simpa [sizeClass] using this

theorem flip_blk (s : Heap) (k : Nat) : (flip s).blk k =
    if (s.blk k).cls ≠ 0 then (if kept s k then ⟨(s.blk k).cls, 0, true⟩ else ⟨0, 0, false⟩) else s.blk k := rfl

theorem flip_cls {s : Heap} {k : Nat} (h : ((flip s).blk k).cls ≠ 0) : (s.blk k).cls ≠ 0 ∧ kept s k = true ∧
    (flip s).blk k = ⟨(s.blk k).cls, 0, true⟩ := by
  rw [flip_blk] at h ⊢
  by_cases hc : (s.blk k).cls ≠ 0
  · rw [if_pos hc] at h ⊢
    cases hk : kept s k
    · simp [hk] at h
    · simp [hc]
  · rw [if_neg hc] at h
    exact absurd h hc

theorem flip_drop {s : Heap} {k : Nat} : k ∈ ((List.range s.nblocks).filter fun b => decide ((s.blk b).cls ≠ 0) && !kept s b) ↔
    k < s.nblocks ∧ (s.blk k).cls ≠ 0 ∧ kept s k = false := by
  simp [List.mem_filter]

theorem flip_head {s : Heap} (k : Nat) : (flip s).head k = if k ∈ ((List.range s.nblocks).filter fun b => decide ((s.blk b).cls ≠ 0) && !kept s b)
    then fun _ => .zero else s.head k := rfl

theorem flip_large (s : Heap) : (flip s).large ++ (flip s).parked = (s.parked ++ s.large).map fun a => { a with curr := 0 } := by
  simp [flip]

theorem linv_rewind {a : LArena} (h : LInv a) : LInv { a with curr := 0 } :=
  ⟨.nil _, (retile_curr a 0).tiles (tiles_trans h.before h.after) (.nil _) (.nil _), h.bound⟩

theorem inv_flip {s : Heap} (hi : Inv s) : Inv (flip s) := by
  have hfree : ∀ k, k ∈ (flip s).free ↔ (k < s.nblocks ∧ (s.blk k).cls ≠ 0 ∧ kept s k = false) ∨ k ∈ s.free := by
    intro k
    simp only [flip, List.mem_append, flip_drop]
  refine ⟨?_, ?_, ?_, ?_, ?_, ?_, ?_, ?_, ?_, ?_⟩
  · intro slot k hk
    simp only [flip, List.mem_filter, List.mem_range, Bool.and_eq_true, decide_eq_true_eq] at hk
    obtain ⟨_, ⟨hc, hk⟩, hsl⟩ := hk
    obtain ⟨sl, h0, h1⟩ := hi.table k hc
    have h2 := Cora.GC.C29_class_of_class sl h0 _ h1
    rw [hsl] at h2
    have : slot = sl := by
      have := Option.some.inj h2
      omega
    subst this
    rw [flip_blk, if_pos hc, if_pos hk]
    exact ⟨h0, h1, hc⟩
  · intro k hk
    obtain ⟨h1, _, h3⟩ := flip_cls hk
    rw [h3]
    exact ⟨(hi.made k h1).1, ⟨0, by simp⟩⟩
  · intro k hk
    obtain ⟨h1, _, h3⟩ := flip_cls hk
    rw [h3]
    exact hi.table k h1
  · intro k hk
    have hnb : (flip s).nblocks = s.nblocks := rfl
    rw [hfree, or_assoc] at hk
    rw [hnb, flip_blk]
    rcases hk with hk | hk
    · rw [if_pos hk.2.1, if_neg (by simp [hk.2.2])]
      exact ⟨hk.1, rfl⟩
    · have := hi.idle k hk
      rw [if_neg (by simp [this.2])]
      exact this
  · have hd : ((List.range s.nblocks).filter fun b => decide ((s.blk b).cls ≠ 0) && !kept s b).Nodup :=
      List.Pairwise.filter _ List.nodup_range
    have hsh : (flip s).free ++ (flip s).gray =
        ((List.range s.nblocks).filter fun b => decide ((s.blk b).cls ≠ 0) && !kept s b) ++ (s.free ++ s.gray) := by
      simp [flip]
    rw [hsh, List.nodup_append]
    refine ⟨hd, hi.nodup, ?_⟩
    intro x hx y hy e
    subst e
    rw [flip_drop] at hx
    rw [List.mem_append] at hy
    have := (hi.idle x hy).2
    rw [this] at hx
    exact hx.2.1 rfl
  · intro k hk off
    rw [hfree] at hk
    rw [flip_head]
    split
    · rfl
    · rename_i hn
      rw [flip_drop] at hn
      exact hi.zero k (hk.resolve_left hn) off
  · intro k hk off
    rw [flip_head]
    split
    · rfl
    · exact hi.unmade k hk off
  · intro k hk ht
    obtain ⟨_, _, h3⟩ := flip_cls hk
    rw [h3] at ht
    simp at ht
  · intro a ha
    rw [flip_large, List.mem_map] at ha
    obtain ⟨b, hb, rfl⟩ := ha
    have := hi.large b (by simp only [List.mem_append] at hb ⊢; exact hb.symm)
    exact ⟨linv_rewind this.1, this.2⟩
  · rw [flip_large, map_id_eq (f := fun a : LArena => { a with curr := 0 }) fun _ _ => rfl]
    have := hi.ids
    rw [List.map_append] at this ⊢
    exact (List.perm_append_comm.nodup_iff).mpr this

theorem live_flip {s : Heap} (hi : Inv s) {r : Region} (hr : Live s r) (hu : inUseAt (s.gv + 2) s r = true) : Live (flip s) r := by
  rcases hr with ⟨k, off, hr, rfl⟩ | ⟨a, t, hr, rfl⟩
  · have hf := hr.fits
    have hc := hr.cls
    rw [inUseAt, small_headAt s (by omega)] at hu
    dsimp only at hu
    have hk : kept s k = true := by
      cases hk : kept s k
      · exfalso
        have ht : (s.blk k).touch = false := by
          cases ht : (s.blk k).touch
          · rfl
          · simp [kept, ht] at hk
        have hv := hi.untouched k hr.cls ht off hr.dvd hr.fits hr.used
        have := vcmp_prev s.gv _ hv
        simp only [inuse, Bool.and_eq_true, decide_eq_true_eq] at hu
        omega
      · rfl
    have hb : (flip s).blk k = ⟨(s.blk k).cls, 0, true⟩ := by rw [flip_blk, if_pos hc, if_pos hk]
    refine .inl ⟨k, off, ⟨by rw [hb]; exact hc, by rw [hb]; exact hr.dvd, by rw [hb]; exact hf, ?_⟩, by rw [hb]⟩
    rw [flip_head, if_neg (by rw [flip_drop]; simp [hk])]
    exact hu
  · rw [inUseAt, large_headAt hi hr.mem] at hu
    refine .inr ⟨{ a with curr := 0 }, t, ⟨?_, (retile_curr a 0).tile hr.tile, hu⟩, rfl⟩
    rw [flip_large]
    have hm := hr.mem
    have hm' : a ∈ s.parked ++ s.large := by simp only [List.mem_append] at hm ⊢; exact hm.symm
    exact List.mem_map_of_mem (f := fun a : LArena => { a with curr := 0 }) hm'

/-! ### allocation -/

theorem blocksOf_pos {size : Nat} (h : 0 < size) : 0 < blocksOf size := by
  simp only [blocksOf, MEM_BLOCK_SIZE]
  omega

theorem class_le {slot c : Nat} (h : sizeClass[slot]? = some c) : c ≤ 4096 := by
  have hm : c ∈ sizeClass := List.mem_of_getElem? h
  have : ∀ x ∈ sizeClass, x ≤ 4096 := by decide
  exact this c hm

theorem alloc_spec {s s' : Heap} {n size : Nat} {r : Region} (hi : Inv s) (h0 : 0 < size) (h : alloc n s size = some (s', r)) :
    Inv s' ∧ Live s' r ∧ (∀ r', Live s r' → Live s' r' ∧ Disjoint r' r) ∧ size ≤ r.hi - r.lo ∧ r.hi ≤ 16384 * 4096 := by
  unfold alloc at h
  by_cases hsz : size ≥ MEM_BLOCK_SIZE
  · rw [if_pos hsz] at h
    split at h
    · split at h
      · rename_i s1 a p hl
        simp only [Option.some.injEq, Prod.mk.injEq] at h
        obtain ⟨rfl, rfl⟩ := h
        obtain ⟨h1, h2, h3, h4⟩ := largeLoop_spec (blocksOf_pos h0) n s hi s1 a p hl
        obtain ⟨h5, h6, h7⟩ := h4 size rfl
        have hv : newVer s1 = newVer s := by simp only [newVer, h2, h3]
        have hpl : (⟨a.id, a.idx, a.curr, upd a.head p ⟨true, size, newVer s1, 0⟩, a.base⟩ : LArena) = a.place p size (newVer s) := by
          rw [hv]; rfl
        rw [hpl]
        have hls : lslots ((a.place p size (newVer s)).head p) = blocksOf size := by
          simp only [LArena.place, upd_same, used_lslots]
        refine ⟨h5, .inr ⟨a.place p size (newVer s), p, ⟨by simp, h6, ?_⟩, by rw [hls]; rfl⟩, h7, ?_, ?_⟩
        · simp only [LArena.place, upd_same, h3]
          exact inuse_new s size 0
        · simp only [largeRegion, blocksOf, MEM_BLOCK_SIZE]
          rw [← Nat.sub_mul]
          have : p + (size + 4096 - 1) / 4096 - p = (size + 4096 - 1) / 4096 := by omega
          rw [this]
          omega
        · have he := tile_end h6
          rw [hls] at he
          have hb := (h5.large (a.place p size (newVer s)) (by simp)).1.bound
          simp only [largeRegion, MEM_BLOCK_SIZE]
          exact Nat.mul_le_mul_right _ (Nat.le_trans he hb)
      · simp at h
    · simp at h
  · rw [if_neg hsz] at h
    have hsz' : size < 4096 := by simpa [MEM_BLOCK_SIZE] using hsz
    obtain ⟨slot, e1, e2, c, below, e3, _, e5, _⟩ := Cora.GC.C29_size_class size h0 (by omega)
    rw [e1] at h
    dsimp only at h
    rw [show (slot : Int).toNat = slot by omega] at h
    split at h
    · rename_i s1 b p hl
      simp only [Option.some.injEq, Prod.mk.injEq] at h
      obtain ⟨rfl, rfl⟩ := h
      have hc0 : c ≠ 0 := by omega
      obtain ⟨k1, k2, k3, k4, k5, k6, k7⟩ := allocLoop_spec e2 e3 hc0 n s hi s1 b p hl
      have hb : (s1.blk b).cls ≠ 0 := by rw [k3]; exact hc0
      have hi' := inv_put k1 (p := p) (size := size) hb (by rw [k2.busy]; exact k7)
      refine ⟨hi', .inl ⟨b, p, ⟨hb, by rw [k3]; exact k4, by rw [k3]; exact k5, ?_⟩, rfl⟩, ?_, ?_, ?_⟩
      · simp only [upd_same]
        exact inuse_new s1 size 0
      · intro r' hr'
        have hr1 := k2.live hr'
        rcases hr1 with ⟨k, off, hr, rfl⟩ | ⟨a, t, hr, rfl⟩
        · by_cases hkb : k = b
          · subst hkb
            have hop : off ≠ p := by
              rintro rfl
              have := hr.used
              rw [k2.gv, k2.head, k6] at this
              simp at this
            refine ⟨.inl ⟨k, off, ⟨hr.cls, hr.dvd, hr.fits, ?_⟩, rfl⟩, small_disjoint_off hop hr.dvd (by rw [k3]; exact k4)⟩
            simp only [upd_same, upd_other _ _ hop]
            exact hr.used
          · refine ⟨.inl ⟨k, off, ⟨hr.cls, hr.dvd, hr.fits, ?_⟩, rfl⟩, small_disjoint_block hkb hr.fits (by rw [k3]; exact k5)⟩
            simp only [upd_other _ _ hkb]
            exact hr.used
        · exact ⟨.inr ⟨a, t, ⟨hr.mem, hr.tile, hr.used⟩, rfl⟩, .inl (by simp [smallRegion, largeRegion])⟩
      · simp only [smallRegion, k3]
        omega
      · simp only [smallRegion, k3, BLOCKS, MEM_BLOCK_SIZE]
        omega
    · simp at h

theorem alloc_some {s : Heap} {size : Nat} (hi : Inv s) (h0 : 0 < size) (h1 : size ≤ 16383 * 4096) : ∃ n s' r, alloc n s size = some (s', r) := by
  by_cases hsz : size ≥ MEM_BLOCK_SIZE
  · refine ⟨s.large.length + 2, ?_⟩
    obtain ⟨⟨s1, a, p⟩, hx⟩ := largeLoop_some (slots := blocksOf size) (blocksOf_pos h0)
      (by simp only [blocksOf, MEM_BLOCK_SIZE, BLOCKS]; omega) (s.large.length + 2) s hi (by omega)
    unfold alloc
    rw [if_pos hsz, if_pos (by simp only [MEM_BLOCK_SIZE, BLOCKS]; omega), hx]
    exact ⟨_, _, rfl⟩
  · have hsz' : size < 4096 := by simpa [MEM_BLOCK_SIZE] using hsz
    obtain ⟨slot, e1, e2, c, below, e3, _, e5, _⟩ := Cora.GC.C29_size_class size h0 (by omega)
    refine ⟨(s.lists slot).length + 1, ?_⟩
    obtain ⟨⟨s1, b, p⟩, hx⟩ := allocLoop_some e2 e3 (by omega) (class_le e3) ((s.lists slot).length + 1) s hi (by omega)
    unfold alloc
    rw [if_neg hsz, e1]
    dsimp only
    rw [show (slot : Int).toNat = slot by omega, hx]
    exact ⟨_, _, rfl⟩

/-! ### histories -/

theorem history_inv {s : Heap} {G : List Region} (h : History s G) : Inv s ∧ (∀ r ∈ G, Live s r) ∧ G.Pairwise Disjoint := by
  induction h with
  | init => exact ⟨inv_init, by simp, .nil⟩
  | alloc _ h0 ha ih =>
    obtain ⟨i1, i2, i3⟩ := ih
    obtain ⟨a1, a2, a3, _, _⟩ := alloc_spec i1 h0 ha
    refine ⟨a1, ?_, ?_⟩
    · intro r' hr'
      rcases List.mem_cons.mp hr' with rfl | hr'
      · exact a2
      · exact (a3 r' (i2 r' hr')).1
    · refine List.pairwise_cons.mpr ⟨fun r' hr' => ?_, i3⟩
      have := (a3 r' (i2 r' hr')).2
      rcases this with h | h | h | h
      · exact .inl (Ne.symm h)
      · exact .inr (.inl (Ne.symm h))
      · exact .inr (.inr (.inr h))
      · exact .inr (.inr (.inl h))
  | step _ hs ih =>
    obtain ⟨i1, i2, i3⟩ := ih
    have := inv_step i1 hs
    exact ⟨this.1, fun r hr => this.2 r (i2 r hr), i3⟩
  | flip _ ih =>
    obtain ⟨i1, i2, i3⟩ := ih
    refine ⟨inv_flip i1, fun r hr => ?_, i3.filter _⟩
    rw [List.mem_filter] at hr
    exact live_flip i1 (i2 r hr.1) hr.2

end Cora.Alloc
