import Verif.Spec.Alloc
/-
Arenas of large objects: the objects lie side by side.
-/
namespace Cora.Alloc
open Spec.Alloc
open Cora.GC (upd vcmp sizeClass getSlotBySize MEM_BLOCK_SIZE)

theorem tiles_le {a : LArena} {i j : Nat} (h : Tiles a i j) : i ≤ j := by
  induction h with
  | nil => omega
  | cons _ _ _ ih => omega

theorem tiles_trans {a : LArena} {i j k : Nat} (h : Tiles a i j) (h' : Tiles a j k) : Tiles a i k := by
  induction h with
  | nil => exact h'
  | cons h1 h2 _ ih => exact .cons h1 h2 (ih h')

theorem tiles_split {a : LArena} {i j k : Nat} (h : Tiles a i j) (h' : Tiles a i k) (hjk : j ≤ k) : Tiles a j k := by
  induction h with
  | nil => exact h'
  | cons h1 h2 h3 ih =>
    cases h' with
    | nil =>
      have := tiles_le h3
      omega
    | cons _ _ h4 => exact ih h4 hjk

/-- the first object -/
theorem tiles_first {a : LArena} {i k : Nat} (h : Tiles a i k) (hik : i < k) :
    0 < lslots (a.head i) ∧ (∀ x, i ≤ x → x < i + lslots (a.head i) → a.base x = i) ∧ Tiles a (i + lslots (a.head i)) k := by
  cases h with
  | nil => omega
  | cons h1 h2 h3 => exact ⟨h1, h2, h3⟩

/-- two objects -/
theorem tiles_apart {a : LArena} {i t u k : Nat} (h : Tiles a i t) (h' : Tiles a i u) (htu : t < u) (hu : Tiles a t k) (hk : u ≤ k) :
    t + lslots (a.head t) ≤ u := by
  have h1 := tiles_split h h' (Nat.le_of_lt htu)
  obtain ⟨_, _, h2⟩ := tiles_first h1 htu
  exact tiles_le h2

/-- the same from block `i` to block `j` -/
def Same (a b : LArena) (i j : Nat) : Prop := ∀ x, i ≤ x → x < j → b.head x = a.head x ∧ b.base x = a.base x

theorem tiles_same {a b : LArena} {i j : Nat} (h : Tiles a i j) (hs : Same a b i j) : Tiles b i j := by
  induction h with
  | nil => exact .nil _
  | @cons i j h1 h2 h3 ih =>
    have hle := tiles_le h3
    have hi := (hs i (by omega) (by omega)).1
    refine .cons (by rw [hi]; exact h1) (fun x hx hx' => ?_) ?_
    · rw [hi] at hx'
      rw [(hs x hx (by omega)).2]
      exact h2 x hx hx'
    · rw [hi]
      exact ih fun x hx hx' => hs x (by omega) hx'

/-- the objects fill the arena up to `idx`, and one begins at `curr` -/
structure LInv (a : LArena) : Prop where
  before : Tiles a 0 a.curr
  after : Tiles a a.curr a.idx
  bound : a.idx ≤ BLOCKS

/-- objects in use are still there -/
def Keep (gv : Nat) (a b : LArena) : Prop := ∀ t, Tile a t → inuse gv (a.head t) = true → Tile b t ∧ b.head t = a.head t

theorem keep_refl (gv : Nat) (a : LArena) : Keep gv a a := fun _ h _ => ⟨h, rfl⟩

theorem keep_trans {gv : Nat} {a b c : LArena} (h : Keep gv a b) (h' : Keep gv b c) : Keep gv a c := fun t ht hu => by
  obtain ⟨h1, h2⟩ := h t ht hu
  obtain ⟨h3, h4⟩ := h' t h1 (by rw [h2]; exact hu)
  exact ⟨h3, h4.trans h2⟩

/-- only what lies between `p` and `q` has changed, where nothing was in use -/
theorem keep_window {gv : Nat} {a b : LArena} {p q : Nat} (hp : Tiles a 0 p) (hpq : Tiles a p q) (hq : Tiles a q a.idx)
    (hdead : ∀ t, Tile a t → p ≤ t → t < q → inuse gv (a.head t) = false) (h1 : Same a b 0 p) (h2 : Same a b q a.idx)
    (hb : Tiles b p b.idx) (hbq : q < a.idx → Tiles b p q ∧ b.idx = a.idx) (hidx : a.idx ≤ b.idx) :
    ∀ t, Tile a t → inuse gv (a.head t) = true → (Tile b t ∧ b.head t = a.head t) ∧ (t < p ∨ q ≤ t) := by
  intro t ⟨ht1, ht2, ht3⟩ hu
  have hle := tiles_le hpq
  by_cases htp : t < p
  · refine ⟨⟨⟨tiles_same ht1 fun x hx hx' => h1 x hx (by omega), tiles_trans (j := p) ?_ hb, by omega⟩,
      (h1 t (by omega) htp).1⟩, .inl htp⟩
    exact tiles_same (tiles_split ht1 hp (by omega)) fun x hx hx' => h1 x (by omega) hx'
  · by_cases htq : t < q
    · have := hdead t ⟨ht1, ht2, ht3⟩ (by omega) htq
      rw [hu] at this
      simp at this
    · obtain ⟨hb1, hb2⟩ := hbq (by omega)
      have hqt : Tiles a q t := tiles_split (tiles_trans hp hpq) ht1 (by omega)
      refine ⟨⟨⟨tiles_trans (tiles_same hp h1) (tiles_trans hb1 (tiles_same hqt fun x hx hx' => h2 x hx (by omega))), ?_,
        by omega⟩, (h2 t (by omega) ht3).1⟩, .inr (by omega)⟩
      rw [hb2]
      exact tiles_same ht2 fun x hx hx' => h2 x (by omega) hx'

theorem upd_same {α β : Type} [DecidableEq α] (f : α → β) (a : α) (b : β) : upd f a b a = b := by simp [upd]
theorem upd_other {α β : Type} [DecidableEq α] (f : α → β) {a x : α} (b : β) (h : x ≠ a) : upd f a b x = f x := by
  simp [upd, h]

theorem free_lslots (h : Head) (n : Nat) : lslots { h with used := false, slots := n } = n := by simp [lslots]

theorem free_inuse (gv : Nat) (h : Head) (n : Nat) : inuse gv { h with used := false, slots := n } = false := by simp [inuse]

theorem allBase_of {a : LArena} {start slots h : Nat} (hb : ∀ x, start ≤ x → x < start + slots → a.base x = h) :
    a.allBase start slots h = true := by
  simp only [LArena.allBase, List.all_eq_true, List.mem_range, beq_iff_eq]
  intro i hi
  exact hb _ (by omega) (by omega)

/-- what holds while the dead object at `curr`, of `s1` blocks, is made larger -/
structure Growing (gv : Nat) (a : LArena) (s1 : Nat) : Prop where
  inv : LInv a
  dead : inuse gv (a.head a.curr) = false
  size : lslots (a.head a.curr) = s1
  some : a.curr < a.idx

theorem growLoop_spec {gv slots : Nat} : ∀ (n : Nat) (a : LArena) (s1 : Nat), Growing gv a s1 → a.curr + slots ≤ BLOCKS →
    slots < n + s1 → 0 < n → ∃ b s2, growLoop gv slots n a s1 = some (b, s2) ∧ Growing gv b s2 ∧ Keep gv a b ∧ b.curr = a.curr ∧
      b.id = a.id ∧ s1 ≤ s2
  | 0, _, _, _, _, _, h0 => absurd h0 (by omega)
  | n + 1, a, s1, hg, hs, hn, _ => by
    obtain ⟨hf1, hf2, hf3⟩ := tiles_first hg.inv.after hg.some
    rw [hg.size] at hf1 hf2 hf3
    rw [growLoop]
    by_cases hlt : s1 < slots
    · rw [if_pos hlt]
      by_cases hend : a.curr + s1 = a.idx
      · rw [if_pos hend]
        refine ⟨_, _, rfl, ?_, ?_, rfl, rfl, by omega⟩
        · refine ⟨⟨?_, ?_, ?_⟩, ?_, ?_, ?_⟩
          · refine tiles_same hg.inv.before fun x hx hx' => ?_
            simp only [LArena.meta, LArena.setFree] at hx' ⊢
            rw [upd_other _ _ (by omega), if_neg (by omega)]
            exact ⟨rfl, rfl⟩
          · refine .cons ?_ ?_ ?_ <;> simp only [LArena.meta, LArena.setFree, upd_same, free_lslots]
            · omega
            · intro x hx hx'
              by_cases hxs : a.curr + s1 ≤ x
              · rw [if_pos (by omega)]
              · rw [if_neg (by omega)]
                exact hf2 x hx (by omega)
            · exact .nil _
          · exact hs
          · simp only [LArena.meta, LArena.setFree, upd_same, free_inuse]
          · simp only [LArena.meta, LArena.setFree, upd_same, free_lslots]
          · simp only [LArena.meta, LArena.setFree]; omega
        · intro t ht hu
          refine (keep_window (p := a.curr) (q := a.idx) hg.inv.before hg.inv.after (.nil _) ?_ ?_ ?_ ?_ ?_ ?_ t ht hu).1
          · intro t ht h1 h2
            by_cases htc : t = a.curr
            · rw [htc]; exact hg.dead
            · have h3 := tiles_apart hg.inv.before ht.1 (by omega) hg.inv.after (by omega)
              rw [hg.size] at h3
              omega
          · intro x hx hx'
            simp only [LArena.meta, LArena.setFree]
            rw [upd_other _ _ (by omega), if_neg (by omega)]
            exact ⟨rfl, rfl⟩
          · intro x hx hx'; omega
          · refine .cons ?_ ?_ ?_ <;> simp only [LArena.meta, LArena.setFree, upd_same, free_lslots]
            · omega
            · intro x hx hx'
              by_cases hxs : a.curr + s1 ≤ x
              · rw [if_pos (by omega)]
              · rw [if_neg (by omega)]
                exact hf2 x hx (by omega)
            · exact .nil _
          · intro h; omega
          · simp only [LArena.meta, LArena.setFree]; omega
      · rw [if_neg hend]
        have hlt2 : a.curr + s1 < a.idx := by have := tiles_le hf3; omega
        by_cases hin : inuse gv (a.head (a.curr + s1)) = true
        · rw [if_pos hin]
          exact ⟨a, s1, rfl, hg, keep_refl _ _, rfl, rfl, Nat.le_refl _⟩
        · rw [if_neg hin]
          obtain ⟨hn1, hn2, hn3⟩ := tiles_first hf3 hlt2
          dsimp only
          rw [if_pos ⟨hn1, allBase_of hn2⟩]
          have hle := tiles_le hn3
          generalize hs2 : lslots (a.head (a.curr + s1)) = s2 at *
          have hbt : Tiles ((a.setFree a.curr (s1 + s2)).meta (a.curr + s1) s2 a.curr) a.curr (a.curr + s1 + s2) := by
            refine .cons ?_ ?_ ?_ <;> simp only [LArena.meta, LArena.setFree, upd_same, free_lslots]
            · omega
            · intro x hx hx'
              by_cases hxs : a.curr + s1 ≤ x
              · rw [if_pos (by omega)]
              · rw [if_neg (by omega)]
                exact hf2 x hx (by omega)
            · rw [← Nat.add_assoc]; exact .nil _
          have hafter : Same a ((a.setFree a.curr (s1 + s2)).meta (a.curr + s1) s2 a.curr) (a.curr + s1 + s2) a.idx := by
            intro x hx hx'
            simp only [LArena.meta, LArena.setFree]
            rw [upd_other _ _ (by omega), if_neg (by omega)]
            exact ⟨rfl, rfl⟩
          have hbefore : Same a ((a.setFree a.curr (s1 + s2)).meta (a.curr + s1) s2 a.curr) 0 a.curr := by
            intro x hx hx'
            simp only [LArena.meta, LArena.setFree]
            rw [upd_other _ _ (by omega), if_neg (by omega)]
            exact ⟨rfl, rfl⟩
          have hg' : Growing gv ((a.setFree a.curr (s1 + s2)).meta (a.curr + s1) s2 a.curr) (s1 + s2) := by
            refine ⟨⟨tiles_same hg.inv.before hbefore, ?_, hg.inv.bound⟩, ?_, ?_, hg.some⟩
            · exact tiles_trans hbt (tiles_same hn3 hafter)
            · simp only [LArena.meta, LArena.setFree, upd_same, free_inuse]
            · simp only [LArena.meta, LArena.setFree, upd_same, free_lslots]
          obtain ⟨b, s3, hb, hb1, hb2, hb3, hb4, hb5⟩ := growLoop_spec n _ (s1 + s2) hg' hs (by omega) (by omega)
          refine ⟨b, s3, hb, hb1, keep_trans ?_ hb2, hb3, hb4, by omega⟩
          intro t ht hu
          have hpq : Tiles a a.curr (a.curr + s1 + s2) :=
            tiles_split hg.inv.before (tiles_trans hg.inv.before (.cons (by rw [hg.size]; exact hf1) (by rw [hg.size]; exact hf2)
              (by rw [hg.size]; exact .cons (by rw [hs2]; exact hn1) (by rw [hs2]; exact hn2) (by rw [hs2]; exact .nil _)))) (by omega)
          refine (keep_window (p := a.curr) (q := a.curr + s1 + s2) hg.inv.before hpq hn3 ?_ hbefore hafter
            (tiles_trans hbt (tiles_same hn3 hafter)) (fun _ => ⟨hbt, rfl⟩) (Nat.le_refl _) t ht hu).1
          intro t ht h1 h2
          by_cases htc : t = a.curr
          · rw [htc]; exact hg.dead
          · have h3 := tiles_apart hg.inv.before ht.1 (by omega) hg.inv.after (Nat.le_of_lt ht.2.2)
            rw [hg.size] at h3
            by_cases htn : t = a.curr + s1
            · rw [htn]; simpa using hin
            · have hcur1 : Tiles a 0 (a.curr + s1) := tiles_trans hg.inv.before
                (.cons (by rw [hg.size]; exact hf1) (by rw [hg.size]; exact hf2) (by rw [hg.size]; exact .nil _))
              have h4 := tiles_apart hcur1 ht.1 (by omega) hf3 (Nat.le_of_lt ht.2.2)
              omega
    · rw [if_neg hlt]
      exact ⟨a, s1, rfl, hg, keep_refl _ _, rfl, rfl, Nat.le_refl _⟩

/-- the new object at block `p`, in the arena that the search for a place gave -/
def LArena.place (b : LArena) (p size ver : Nat) : LArena := { b with head := upd b.head p ⟨true, size, ver, 0⟩ }

/-- what an allocation in the arena gives -/
structure Placed (gv : Nat) (a b : LArena) (slots p size ver : Nat) : Prop where
  inv : LInv (b.place p size ver)
  tile : Tile (b.place p size ver) p
  keep : ∀ t, Tile a t → inuse gv (a.head t) = true → (Tile (b.place p size ver) t ∧ (b.place p size ver).head t = a.head t) ∧ t ≠ p

theorem placed_trans {gv : Nat} {a b c : LArena} {slots p size ver : Nat} (h : Keep gv a b) (h' : Placed gv b c slots p size ver) :
    Placed gv a c slots p size ver := by
  refine ⟨h'.inv, h'.tile, fun t ht hu => ?_⟩
  obtain ⟨h1, h2⟩ := h t ht hu
  obtain ⟨⟨h3, h4⟩, h5⟩ := h'.keep t h1 (by rw [h2]; exact hu)
  exact ⟨⟨h3, h4.trans h2⟩, h5⟩

theorem used_lslots (size ver n : Nat) : lslots ⟨true, size, ver, n⟩ = blocksOf size := by simp [lslots]

theorem inuse_lslots {gv : Nat} {h : Head} (hu : inuse gv h = true) : lslots h = blocksOf h.size := by
  simp only [inuse, Bool.and_eq_true] at hu
  simp [lslots, hu.1]

theorem allocIn_spec {gv slots : Nat} (h0 : 0 < slots) : ∀ (n : Nat) (a : LArena), LInv a → BLOCKS < n + a.curr →
    ∃ b r, allocIn gv slots n a = some (b, r) ∧ b.id = a.id ∧
      match r with
      | none => LInv b ∧ Keep gv a b
      | some p => ∀ size ver, blocksOf size = slots → Placed gv a b slots p size ver
  | 0, a, hi, hn => by
    have := tiles_le hi.after
    have := hi.bound
    omega
  | n + 1, a, hi, hn => by
    rw [allocIn]
    by_cases hfit : a.curr + slots ≤ BLOCKS
    · rw [if_pos hfit]
      by_cases hend : a.curr = a.idx
      · rw [if_pos hend]
        by_cases hfull : a.curr + slots ≥ BLOCKS
        · rw [if_pos hfull]
          exact ⟨a, none, rfl, rfl, hi, keep_refl _ _⟩
        · rw [if_neg hfull]
          refine ⟨_, _, rfl, rfl, ?_⟩
          intro size ver hsz
          have hsame : Same a (LArena.place { ((a.setFree a.curr slots).meta a.curr slots a.curr) with
              curr := a.curr + slots, idx := a.idx + slots } a.curr size ver) 0 a.curr := by
            intro x hx hx'
            simp only [LArena.place, LArena.meta, LArena.setFree]
            rw [upd_other _ _ (by omega), upd_other _ _ (by omega), if_neg (by omega)]
            exact ⟨rfl, rfl⟩
          have htile : Tiles (LArena.place { ((a.setFree a.curr slots).meta a.curr slots a.curr) with
              curr := a.curr + slots, idx := a.idx + slots } a.curr size ver) a.curr (a.curr + slots) := by
            refine .cons ?_ ?_ ?_ <;> simp only [LArena.place, LArena.meta, LArena.setFree, upd_same, used_lslots, hsz]
            · exact h0
            · intro x hx hx'
              rw [if_pos (by omega)]
            · exact .nil _
          refine ⟨⟨tiles_trans (tiles_same hi.before hsame) htile, ?_, ?_⟩, ⟨tiles_same hi.before hsame, ?_, ?_⟩, ?_⟩
          · simp only [LArena.place]; rw [hend]; exact .nil _
          · simp only [LArena.place]; omega
          · have hx : (LArena.place { ((a.setFree a.curr slots).meta a.curr slots a.curr) with
              curr := a.curr + slots, idx := a.idx + slots } a.curr size ver).idx = a.curr + slots := by
                simp only [LArena.place]; omega
            rw [hx]
            exact htile
          · simp only [LArena.place]; omega
          · intro t ht hu
            have hb : (LArena.place { ((a.setFree a.curr slots).meta a.curr slots a.curr) with
              curr := a.curr + slots, idx := a.idx + slots } a.curr size ver).idx = a.curr + slots := by
                simp only [LArena.place]; omega
            have := keep_window (gv := gv) (p := a.curr) (q := a.curr) hi.before (.nil _) hi.after (fun t _ h1 h2 => absurd h2 (by omega)) hsame
              (fun x hx hx' => absurd hx' (by omega)) (by rw [hb]; exact htile) (fun h => absurd h (by omega))
              (by rw [hb]; omega) t ht hu
            exact ⟨this.1, by have := ht.2.2; omega⟩
      · rw [if_neg hend]
        have hlt : a.curr < a.idx := by have := tiles_le hi.after; omega
        obtain ⟨hf1, hf2, hf3⟩ := tiles_first hi.after hlt
        by_cases hin : inuse gv (a.head a.curr) = true
        · rw [if_pos hin]
          rw [inuse_lslots hin] at hf1 hf2 hf3
          have hi' : LInv { a with curr := a.curr + blocksOf (a.head a.curr).size } :=
            ⟨tiles_trans (tiles_same hi.before fun _ _ _ => ⟨rfl, rfl⟩) (by
              refine .cons ?_ ?_ ?_ <;> simp only [inuse_lslots hin]
              · exact hf1
              · exact hf2
              · exact .nil _), tiles_same hf3 fun _ _ _ => ⟨rfl, rfl⟩, hi.bound⟩
          obtain ⟨b, r, hb1, hb2, hb3⟩ := allocIn_spec h0 n _ hi' (by simp only; omega)
          refine ⟨b, r, hb1, hb2, ?_⟩
          have hk : Keep gv a { a with curr := a.curr + blocksOf (a.head a.curr).size } := fun t ht _ =>
            ⟨⟨tiles_same ht.1 fun _ _ _ => ⟨rfl, rfl⟩, tiles_same ht.2.1 fun _ _ _ => ⟨rfl, rfl⟩, ht.2.2⟩, rfl⟩
          cases r with
          | none => exact ⟨hb3.1, keep_trans hk hb3.2⟩
          | some p => exact fun size ver hsz => placed_trans hk (hb3 size ver hsz)
        · rw [if_neg hin, if_pos hf1]
          have hg : Growing gv a (lslots (a.head a.curr)) := ⟨hi, by simpa using hin, rfl, hlt⟩
          obtain ⟨b, s1, hb1, hb2, hb3, hb4, hb5, hb6⟩ := growLoop_spec (gv := gv) (slots := slots) (slots + 1) a _ hg hfit (by omega) (by omega)
          rw [hb1]
          dsimp only
          obtain ⟨g1, g2, g3⟩ := tiles_first hb2.inv.after hb2.some
          rw [hb2.size] at g1 g2 g3
          by_cases hs : s1 < slots
          · rw [if_pos hs]
            have hi' : LInv { b with curr := b.curr + s1 } :=
              ⟨tiles_trans (tiles_same hb2.inv.before fun _ _ _ => ⟨rfl, rfl⟩) (by
                refine .cons ?_ ?_ ?_ <;> simp only [hb2.size]
                · exact g1
                · exact g2
                · exact .nil _), tiles_same g3 fun _ _ _ => ⟨rfl, rfl⟩, hb2.inv.bound⟩
            obtain ⟨c, r, hc1, hc2, hc3⟩ := allocIn_spec h0 n _ hi' (by simp only; omega)
            refine ⟨c, r, hc1, hc2.trans hb5, ?_⟩
            have hk : Keep gv b { b with curr := b.curr + s1 } := fun t ht _ =>
              ⟨⟨tiles_same ht.1 fun _ _ _ => ⟨rfl, rfl⟩, tiles_same ht.2.1 fun _ _ _ => ⟨rfl, rfl⟩, ht.2.2⟩, rfl⟩
            cases r with
            | none => exact ⟨hc3.1, keep_trans hb3 (keep_trans hk hc3.2)⟩
            | some p => exact fun size ver hsz => placed_trans (keep_trans hb3 hk) (hc3 size ver hsz)
          · rw [if_neg hs, if_pos (allBase_of fun x hx hx' => g2 x hx (by omega))]
            refine ⟨_, _, rfl, ?_, ?_⟩
            · simp only [LArena.split]; split <;> exact hb5
            intro size ver hsz
            refine placed_trans hb3 ?_
            generalize hc : LArena.place { b.split slots s1 with curr := b.curr + slots } b.curr size ver = c
            have hccurr : c.curr = b.curr + slots := by rw [← hc]; rfl
            have hcidx : c.idx = b.idx := by
              rw [← hc]; simp only [LArena.place, LArena.split]; split <;> rfl
            have hcp : c.head b.curr = ⟨true, size, ver, 0⟩ := by
              rw [← hc]; simp only [LArena.place, upd_same]
            have hcbase : ∀ x, x < b.curr + slots → c.base x = b.base x := by
              intro x hx
              rw [← hc]
              simp only [LArena.place, LArena.split]
              split
              · simp only [LArena.meta, LArena.setFree]; rw [if_neg (by omega)]
              · rfl
            have hbefore : Same b c 0 b.curr := by
              intro x hx hx'
              refine ⟨?_, hcbase x (by omega)⟩
              rw [← hc]
              simp only [LArena.place, LArena.split]
              rw [upd_other _ _ (by omega)]
              split
              · simp only [LArena.meta, LArena.setFree]; rw [upd_other _ _ (by omega)]
              · rfl
            have hafter : Same b c (b.curr + s1) b.idx := by
              intro x hx hx'
              rw [← hc]
              simp only [LArena.place, LArena.split]
              rw [upd_other _ _ (by omega)]
              split
              · simp only [LArena.meta, LArena.setFree]; rw [upd_other _ _ (by omega), if_neg (by omega)]; exact ⟨rfl, rfl⟩
              · exact ⟨rfl, rfl⟩
            have ht1 : Tiles c b.curr (b.curr + slots) := by
              refine .cons ?_ ?_ ?_ <;> rw [hcp, used_lslots, hsz]
              · exact h0
              · intro x hx hx'
                rw [hcbase x hx']
                exact g2 x hx (by omega)
              · exact .nil _
            have ht2 : Tiles c (b.curr + slots) (b.curr + s1) := by
              by_cases hsp : s1 > slots
              · have hh : c.head (b.curr + slots) = { b.head (b.curr + slots) with used := false, slots := s1 - slots } := by
                  rw [← hc]
                  simp only [LArena.place, LArena.split, if_pos hsp, LArena.meta, LArena.setFree]
                  rw [upd_other _ _ (by omega), upd_same]
                refine .cons ?_ ?_ ?_ <;> rw [hh, free_lslots]
                · omega
                · intro x hx hx'
                  rw [← hc]
                  simp only [LArena.place, LArena.split, if_pos hsp, LArena.meta, LArena.setFree]
                  rw [if_pos (by omega)]
                · rw [show b.curr + slots + (s1 - slots) = b.curr + s1 by omega]; exact .nil _
              · rw [show s1 = slots by omega]; exact .nil _
            have ht3 : Tiles c (b.curr + s1) b.idx := tiles_same g3 hafter
            have ht0 : Tiles c 0 b.curr := tiles_same hb2.inv.before hbefore
            refine ⟨?_, ?_, ?_⟩ <;> (try rw [hc])
            · exact ⟨by rw [hccurr]; exact tiles_trans ht0 ht1, by rw [hccurr, hcidx]; exact tiles_trans ht2 ht3,
                by rw [hcidx]; exact hb2.inv.bound⟩
            · exact ⟨ht0, by rw [hcidx]; exact tiles_trans ht1 (tiles_trans ht2 ht3), by rw [hcidx]; exact hb2.some⟩
            · intro t ht hu
              have hpq : Tiles b b.curr (b.curr + s1) := by
                refine .cons ?_ ?_ ?_ <;> rw [hb2.size]
                · exact g1
                · exact g2
                · exact .nil _
              have := keep_window (gv := gv) (p := b.curr) (q := b.curr + s1) hb2.inv.before hpq g3 (fun t ht h1 h2 => by
                by_cases htc : t = b.curr
                · rw [htc]; exact hb2.dead
                · have h3 := tiles_apart hb2.inv.before ht.1 (by omega) hb2.inv.after (Nat.le_of_lt ht.2.2)
                  rw [hb2.size] at h3
                  omega) hbefore hafter (by rw [hcidx]; exact tiles_trans ht1 (tiles_trans ht2 ht3))
                (fun _ => ⟨tiles_trans ht1 ht2, hcidx⟩) (by omega) t ht hu
              exact ⟨this.1, by omega⟩
    · rw [if_neg hfit]
      exact ⟨a, none, rfl, rfl, hi, keep_refl _ _⟩

end Cora.Alloc
