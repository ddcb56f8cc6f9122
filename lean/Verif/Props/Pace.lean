import Verif.Model.Pace
/-
C99: collections begin neither too early nor too late.
-/
open Spec.Pace
namespace Cora.Pace

theorem nearest_small {n : Nat} (h : n < 2 ^ 53) : nearest n = n := by
  unfold nearest
  simp only
  split
  · rfl
  · rename_i hl
    exfalso
    have : n ≠ 0 := by rintro rfl; exact hl (by decide)
    exact hl (Nat.le_of_lt_succ ((Nat.log2_lt this).mpr h))

/-- a double is close -/
theorem nearest_close {n : Nat} (h : n < 2 ^ 86) : nearest n ≤ n + 2 ^ 33 ∧ n ≤ nearest n + 2 ^ 33 := by
  unfold nearest
  simp only
  split
  · omega
  · rename_i hl
    have h0 : n ≠ 0 := by rintro rfl; exact hl (by decide)
    have hs : Nat.log2 n - 52 ≤ 33 := by
      have := (Nat.log2_lt h0).mpr h
      omega
    have hp : 2 ^ (Nat.log2 n - 52) ≤ 2 ^ 33 := Nat.pow_le_pow_right (by decide) hs
    have hpos : 0 < 2 ^ (Nat.log2 n - 52) := Nat.two_pow_pos _
    generalize 2 ^ (Nat.log2 n - 52) = S at *
    have h1 := Nat.div_add_mod n S
    have h2 := Nat.mod_lt n hpos
    have h3 : n / S * S = S * (n / S) := Nat.mul_comm ..
    split
    · rw [Nat.add_mul]; omega
    · omega

/-- two fifths and three fifths, to within a byte -/
theorem mix_eq {a b p : Nat} (hab : a + b < 2 ^ 31) (hp : p < 2 ^ 31) :
    ∃ t, mix a b p = some t ∧ 5 * t ≤ 2 * (a + b) + 3 * p ∧ 2 * (a + b) + 3 * p ≤ 5 * t + 5 ∧ (t ≤ a + b ∨ t ≤ p) := by
  unfold mix
  have e1 : u64 (a + b) = a + b := Nat.mod_eq_of_lt (by omega)
  simp only [e1]
  rw [nearest_small (n := a + b) (by omega), nearest_small (n := p) (by omega)]
  generalize a + b = x at *
  obtain ⟨h1, h2⟩ := nearest_close (n := c04 * x) (by unfold c04; omega)
  obtain ⟨h3, h4⟩ := nearest_close (n := c06 * p) (by unfold c06; omega)
  generalize nearest (c04 * x) = X at *
  generalize nearest (c06 * p) = Y at *
  unfold c04 at h1 h2
  unfold c06 at h3 h4
  obtain ⟨h5, h6⟩ := nearest_close (n := X + Y) (by omega)
  generalize nearest (X + Y) = R at *
  have h7 := Nat.div_add_mod R (2 ^ 53)
  have h8 := Nat.mod_lt R (y := 2 ^ 53) (by decide)
  generalize R / 2 ^ 53 = t at *
  refine ⟨t, if_pos (by omega), by omega, by omega, by omega⟩

theorem limit_eq {n p : Nat} (hn : n < 2 ^ 31) (hp : p < 2 ^ 31) : limit n p = max 4096 (min n (3 * p / 2)) := by
  unfold limit
  simp only
  rw [nearest_small (n := p) (by omega), nearest_small (n := 3 * p) (by omega), nearest_small (n := n) (by omega)]
  simp only [MEM_BLOCK_SIZE]
  split <;> split <;> omega

/-- what holds before and after each round -/
structure Good (B A : Nat) (g : GC) : Prop where
  young : g.stats.young ≤ B
  middle : g.stats.middle ≤ B
  old : g.stats.old ≤ B
  avg : g.stats.avg ≤ A
  lo : 4096 ≤ g.stats.nextSize
  hi : g.stats.nextSize ≤ max 4096 (3 * B + A)
  prev : g.stats.prevTrigger = g.stats.nextSize ∨ g.stats.prevTrigger = 0
  version : ∃ r, g.version = 2 * r

/-- the sizes that the statistics hold -/
def Stats.sizes (s : Stats) : Sizes := ⟨s.young, s.middle, s.old⟩

theorem record_after {v r : Nat} (hv : v = 2 * r) (s : Stats) :
    record v s = { s with young := (s.sizes.after r s.markSize).young, middle := (s.sizes.after r s.markSize).middle, old := (s.sizes.after r s.markSize).old } := by
  subst hv
  unfold record Sizes.after
  have h1 : (2 * r % 24 = 0) ↔ (r % 12 = 0) := by omega
  have h2 : (2 * r % 8 = 0) ↔ (r % 4 = 0) := by omega
  have h3 : (2 * r % 4 = 0) ↔ (r % 2 = 0) := by omega
  simp only [h1, h2, h3]
  split
  · rfl
  · split
    · rfl
    · split <;> rfl

theorem inuse_eq (s : Stats) {live during : Nat} (h3 : live < 2 ^ 64) (h4 : during < 2 ^ 63) :
    allocDone (inuse (reset s) live) during = { s with allocated := during, markSize := live } := by
  unfold allocDone inuse reset u64
  simp only [Nat.zero_add]
  rw [Nat.mod_eq_of_lt h3, Nat.mod_eq_of_lt (by omega)]

theorem mk_flip (g : GC) (r live during avg base : Nat) (hr : g.version = 2 * r) (h3 : live < 2 ^ 64) (h4 : during < 2 ^ 63)
    (eu : u64 (during + 3 * g.stats.avg) / 4 = avg) (eb : intBase (u64 (g.stats.sizes.after r live).sum) = base) :
    flip { g with stats := allocDone (inuse (reset g.stats) live) during } = (mix base avg g.stats.prevTrigger).map fun n =>
      ⟨⟨during, limit n g.stats.prevTrigger, live, (g.stats.sizes.after r live).young, (g.stats.sizes.after r live).middle, (g.stats.sizes.after r live).old, avg,
        limit n g.stats.prevTrigger⟩, g.version + 2⟩ := by
  unfold flip
  simp only [inuse_eq g.stats h3 h4, record_after hr]
  have e : ({ g.stats with allocated := during, markSize := live } : Stats).sizes = g.stats.sizes := rfl
  simp only [e]
  show (do let n ← mix (intBase (u64 (g.stats.sizes.after r live).sum)) _ _; _) = _
  rw [eb, eu]
  cases mix base avg g.stats.prevTrigger <;> rfl

/-- **C99**, the end of collection number `r`: the new threshold is two fifths of what is in use, together with what collections allocate on average, and
three fifths of the old threshold, to within a byte; but at most half again as much as the old one and at least a block -/
theorem C99_threshold (g : GC) (r live during : Nat) (hr : g.version = 2 * r) (used avg : Nat) (hu : used = (g.stats.sizes.after r live).sum)
    (ha : avg = (during + 3 * g.stats.avg) / 4) (h1 : used + avg < 2 ^ 31) (h2 : g.stats.prevTrigger < 2 ^ 31) (h3 : live < 2 ^ 64) (h4 : during < 2 ^ 63)
    (h5 : g.stats.avg < 2 ^ 31) :
    ∃ g' t, flip { g with stats := allocDone (inuse (reset g.stats) live) during } = some g' ∧
      5 * t ≤ 2 * (used + avg) + 3 * g.stats.prevTrigger ∧ 2 * (used + avg) + 3 * g.stats.prevTrigger ≤ 5 * t + 5 ∧
      (t ≤ used + avg ∨ t ≤ g.stats.prevTrigger) ∧
      g'.stats.nextSize = max 4096 (min t (3 * g.stats.prevTrigger / 2)) ∧ g'.stats.prevTrigger = g'.stats.nextSize ∧
      g'.stats.sizes = g.stats.sizes.after r live ∧ g'.stats.avg = avg ∧ g'.stats.allocated = during ∧ g'.version = 2 * (r + 1) := by
  have eu : u64 (during + 3 * g.stats.avg) / 4 = avg := by rw [ha, u64, Nat.mod_eq_of_lt (by omega)]
  have eb : intBase (u64 (g.stats.sizes.after r live).sum) = used := by
    rw [← hu]
    have e1 : u64 used = used := Nat.mod_eq_of_lt (by omega)
    have e2 : used % 2 ^ 32 = used := Nat.mod_eq_of_lt (by omega)
    unfold intBase
    simp only [e1, e2]
    rw [if_pos (by omega)]
  obtain ⟨t, e, t1, t2, t3⟩ := mix_eq h1 h2
  have el : limit t g.stats.prevTrigger = max 4096 (min t (3 * g.stats.prevTrigger / 2)) := limit_eq (by omega) h2
  exact ⟨_, t, by rw [mk_flip g r live during avg used hr h3 h4 eu eb, e]; rfl, t1, t2, t3, el, rfl, rfl, rfl, rfl, by simp only [hr]; omega⟩

theorem after_le {s : Sizes} {B r live : Nat} (h1 : s.young ≤ B) (h2 : s.middle ≤ B) (h3 : s.old ≤ B) (hl : live ≤ B) :
    (s.after r live).young ≤ B ∧ (s.after r live).middle ≤ B ∧ (s.after r live).old ≤ B := by
  unfold Sizes.after
  split
  · exact ⟨h1, h2, hl⟩
  · split
    · exact ⟨h1, hl, h3⟩
    · split
      · exact ⟨hl, h2, h3⟩
      · exact ⟨h1, h2, h3⟩

theorem good_flip {B A : Nat} {g : GC} (h : Good B A g) (hBA : 3 * B + A < 2 ^ 31) {live during : Nat} (hl : live ≤ B) (hd : during ≤ A) :
    ∃ g', flip { g with stats := allocDone (inuse (reset g.stats) live) during } = some g' ∧ Good B A g' ∧ g'.stats.allocated = during := by
  obtain ⟨a1, a2, a3, a4, a5, a6, a7, r, a8⟩ := h
  obtain ⟨c1, c2, c3⟩ := after_le (s := g.stats.sizes) (r := r) a1 a2 a3 hl
  have hsum : (g.stats.sizes.after r live).sum ≤ 3 * B := by unfold Sizes.sum; omega
  obtain ⟨g', t, e, t1, t2, t3, n1, n2, n3, n4, n5, n6⟩ := C99_threshold g r live during a8 _ _ rfl rfl (by omega) (by omega) (by omega) (by omega) (by omega)
  have hy : g'.stats.young = (g.stats.sizes.after r live).young := by rw [← n3]; rfl
  have hm : g'.stats.middle = (g.stats.sizes.after r live).middle := by rw [← n3]; rfl
  have ho : g'.stats.old = (g.stats.sizes.after r live).old := by rw [← n3]; rfl
  refine ⟨g', e, ⟨by omega, by omega, by omega, by omega, by omega, by omega, by omega, r + 1, n6⟩, n5⟩

/-- what is added up stays small -/
theorem run_good {B A : Nat} (hBA : 3 * B + A < 2 ^ 31) : ∀ (es : List Event) (g : GC), Good B A g →
    g.stats.allocated + (es.map Event.bytes).sum < 2 ^ 63 →
    (∀ l d, Event.ask l d ∈ es → l ≤ B) → (∀ l d, Event.ask l d ∈ es → d ≤ A) →
    ∃ g' h, run g es = some (g', h) ∧ h.map Prod.fst = es ∧ Good B A g' ∧ since.go h g.stats.allocated = g'.stats.allocated ∧
      ∀ a l d b r, h = a ++ (.ask l d, b) :: r →
        (b = true → 4096 < since.go a g.stats.allocated) ∧ (b = false → since.go a g.stats.allocated ≤ max 4096 (3 * B + A))
  | [], g, hg, _, _, _ => ⟨g, [], rfl, rfl, hg, rfl, fun a l d b r e => by cases a <;> cases e⟩
  | e :: es, g, hg, hs, hl, hd => by
    simp only [List.map_cons, List.sum_cons] at hs
    have hstep : ∃ g1 b, step g e = some (g1, b) ∧ Good B A g1 ∧ (∀ h, since.go ((e, b) :: h) g.stats.allocated = since.go h g1.stats.allocated) ∧
        g1.stats.allocated + (es.map Event.bytes).sum < 2 ^ 63 ∧
        (∀ l d, e = .ask l d → (b = true → 4096 < g.stats.allocated) ∧ (b = false → g.stats.allocated ≤ max 4096 (3 * B + A))) := by
      cases e with
      | alloc n =>
        simp only [Event.bytes] at hs
        have ea : u64 (g.stats.allocated + n) = g.stats.allocated + n := Nat.mod_eq_of_lt (by omega)
        refine ⟨_, false, rfl, ⟨hg.young, hg.middle, hg.old, hg.avg, hg.lo, hg.hi, hg.prev, hg.version⟩, fun h => ?_, ?_, fun l d e => by cases e⟩
        · simp only [allocDone, ea, since.go]
        · simp only [allocDone, ea]; omega
      | ask l d =>
        simp only [Event.bytes] at hs
        simp only [step, triggerCheck]
        by_cases hc : g.stats.allocated > g.stats.nextSize
        · obtain ⟨g1, e1, hg1, ha⟩ := good_flip hg hBA (hl l d List.mem_cons_self) (hd l d List.mem_cons_self)
          refine ⟨g1, true, by simp [hc, e1], hg1, fun h => by rw [ha]; rfl, by rw [ha]; omega, fun _ _ _ => ⟨fun _ => ?_, fun e => by cases e⟩⟩
          have := hg.lo
          omega
        · refine ⟨g, false, by simp [hc], hg, fun h => rfl, by omega, fun _ _ _ => ⟨(fun e => by cases e), fun _ => ?_⟩⟩
          have := hg.hi
          omega
    obtain ⟨g1, b, e1, hg1, hsi, hs1, hb⟩ := hstep
    obtain ⟨g2, h, e2, hm, hg2, hs2, hq⟩ := run_good hBA es g1 hg1 hs1 (fun l d hx => hl l d (List.mem_cons_of_mem _ hx)) (fun l d hx => hd l d (List.mem_cons_of_mem _ hx))
    refine ⟨g2, (e, b) :: h, by simp [run, e1, e2], by simp [hm], hg2, by rw [hsi]; exact hs2, ?_⟩
    intro a l d b' r he
    cases a with
    | nil =>
      simp only [List.nil_append, List.cons.injEq, Prod.mk.injEq] at he
      obtain ⟨⟨he1, he2⟩, _⟩ := he
      rw [← he2]
      exact hb l d he1
    | cons x a =>
      simp only [List.cons_append, List.cons.injEq] at he
      obtain ⟨he1, he2⟩ := he
      rw [← he1, hsi]
      exact hq a l d b' r he2

theorem since_go (h : List (Event × Bool)) : since h = since.go h 0 := by cases h <;> rfl

/-- **C99**: for every history in which a collection finds at most `B` bytes in use and at most `A` bytes are allocated while it runs, the statistics are
computed without undefined behaviour; a collection does not begin before more than a block was allocated since the last one began; and when it is
asked for and does not begin, not more was allocated since the last one began than three times `B` and `A`, or a block. Missing: 2 GB and more
(`C99_large_wrong`). -/
theorem C99_pace_partial (B A : Nat) (hBA : 3 * B + A < 2 ^ 31) (es : List Event) (h : Within B A es) :
    ∃ g hist, run gcInit es = some (g, hist) ∧ hist.map Prod.fst = es ∧
      ∀ a l d b r, hist = a ++ (.ask l d, b) :: r → (b = true → 4096 < since a) ∧ (b = false → since a ≤ max 4096 (3 * B + A)) := by
  have hg : Good B A gcInit := by
    refine ⟨?_, ?_, ?_, ?_, ?_, ?_, ?_, 1, rfl⟩ <;> simp [gcInit, MEM_BLOCK_SIZE] <;> omega
  obtain ⟨g, hist, e, hm, _, _, hq⟩ := run_good hBA es gcInit hg (by have := h.total; simpa [gcInit] using this) h.live h.during
  refine ⟨g, hist, e, hm, fun a l d b r he => ?_⟩
  rw [since_go]
  exact hq a l d b r he

theorem nearest_half (n : Nat) : n ≤ 2 * nearest n := by
  unfold nearest
  simp only
  split
  · omega
  · rename_i hl
    have h0 : n ≠ 0 := by rintro rfl; exact hl (by decide)
    have hlog : 2 ^ Nat.log2 n ≤ n := Nat.log2_self_le h0
    have he : 2 ^ Nat.log2 n = 2 ^ 52 * 2 ^ (Nat.log2 n - 52) := by rw [← Nat.pow_add]; congr 1; omega
    have hpos : 0 < 2 ^ (Nat.log2 n - 52) := Nat.two_pow_pos _
    rw [he] at hlog
    generalize 2 ^ (Nat.log2 n - 52) = S at *
    have h1 := Nat.div_add_mod n S
    have h2 := Nat.mod_lt n hpos
    have h3 : n / S * S = S * (n / S) := Nat.mul_comm ..
    split
    · rw [Nat.add_mul]; omega
    · omega

/-- when a collection ends and between 2 GB and 4 GB are in use (together with what collections allocate on average), what happens is undefined: the sum
becomes a negative `int`, then a huge number, which does not fit into an `int` -/
theorem C99_large_wrong (g : GC) (r live during : Nat) (hr : g.version = 2 * r) (used avg : Nat) (hu : used = (g.stats.sizes.after r live).sum)
    (ha : avg = (during + 3 * g.stats.avg) / 4) (h1 : 2 ^ 31 ≤ used) (h2 : used + avg < 2 ^ 32) (h3 : live < 2 ^ 64) (h4 : during < 2 ^ 63) (h5 : g.stats.avg < 2 ^ 32) :
    flip { g with stats := allocDone (inuse (reset g.stats) live) during } = none := by
  have eu : u64 (during + 3 * g.stats.avg) / 4 = avg := by rw [ha, u64, Nat.mod_eq_of_lt (by omega)]
  have eb : intBase (u64 (g.stats.sizes.after r live).sum) = 2 ^ 64 - 2 ^ 32 + used := by
    rw [← hu]
    have e1 : u64 used = used := Nat.mod_eq_of_lt (by omega)
    have e2 : used % 2 ^ 32 = used := Nat.mod_eq_of_lt (by omega)
    unfold intBase
    simp only [e1, e2]
    rw [if_neg (by omega)]
  rw [mk_flip g r live during avg _ hr h3 h4 eu eb]
  have e1 : u64 (2 ^ 64 - 2 ^ 32 + used + avg) = 2 ^ 64 - 2 ^ 32 + used + avg := Nat.mod_eq_of_lt (by omega)
  have : mix (2 ^ 64 - 2 ^ 32 + used) avg g.stats.prevTrigger = none := by
    unfold mix
    simp only [e1]
    have a1 := nearest_half (2 ^ 64 - 2 ^ 32 + used + avg)
    generalize nearest (2 ^ 64 - 2 ^ 32 + used + avg) = n1 at *
    have a2 := nearest_half (c04 * n1)
    generalize hn2 : nearest (c04 * n1) = n2 at *
    have a3 := nearest_half (n2 + nearest (c06 * nearest g.stats.prevTrigger))
    generalize nearest (n2 + nearest (c06 * nearest g.stats.prevTrigger)) = n3 at *
    generalize nearest (c06 * nearest g.stats.prevTrigger) = n4 at *
    unfold c04 at a2
    rw [if_neg (by omega)]
  rw [this]
  rfl

/-- it can come to that, in the second collection -/
example : run gcInit [.alloc 5000, .ask 0 0, .alloc 5000, .ask (2 ^ 31) 0] = none := by decide +kernel

/-! ### the hypotheses can be met -/

/-- several rounds, in which the threshold grows -/
def sample : List Event :=
  [.alloc 5000, .ask 3000 200, .ask 0 0, .alloc 4000, .ask 9000 500, .alloc 6000, .ask 9000 500, .alloc 6000, .ask 20000 500, .alloc 9000, .ask 20000 500]

example : Within 20000 500 sample := by
  refine ⟨fun l d h => ?_, fun l d h => ?_, by decide +kernel⟩ <;>
    (simp only [sample, List.mem_cons, List.not_mem_nil, or_false, Event.ask.injEq, reduceCtorEq, false_or] at h; omega)

example : ((run gcInit sample).map fun x => (x.1.stats.nextSize, x.2.map Prod.snd)) =
    some (11056, [false, true, false, false, true, false, true, false, false, false, true]) := by decide +kernel

/-- C99_threshold, C99_large_wrong: in the third collection, with 9000 bytes found live, the hypotheses of the first are met; with 2^31, those
of the second -/
example : ∃ g, g = (⟨⟨6000, 6000, 3000, 0, 3000, 0, 100, 6000⟩, 4⟩ : GC) ∧ g.version = 2 * 2 ∧ (g.stats.sizes.after 2 9000).sum + (500 + 3 * g.stats.avg) / 4 < 2 ^ 31 ∧
    g.stats.prevTrigger < 2 ^ 31 ∧ 2 ^ 31 ≤ (g.stats.sizes.after 2 (2 ^ 31)).sum ∧
    (g.stats.sizes.after 2 (2 ^ 31)).sum + (500 + 3 * g.stats.avg) / 4 < 2 ^ 32 := by
  refine ⟨_, rfl, ?_⟩
  decide +kernel

end Cora.Pace
