import Verif.Model.Hash
/-
C50: the hash library.
-/
open Spec
namespace Cora.Hash

variable {K W : Type} [DecidableEq K]

/-- the entries a slot holds -/
def Slot.entries : Slot K W → List (K × W)
  | .bucket l => l
  | _ => []

/-- bucket number of a key in a table with `n` buckets -/
def place (hash : K → Int) (n : Nat) (k : K) : Nat := (hash k).toNat % n

/-- number of entries -/
def total (bs : List (Slot K W)) : Nat := (bs.map (fun s => s.entries.length)).sum

/-- representation invariant: `bs` are the buckets, `m` the map they stand for, `S` the keys in use -/
structure Inv (hash : K → Int) (n : Nat) (S : K → Prop) (h : Table K W) (m : K → Option W) : Prop where
  shape : ∃ bs : List (Slot K W), bs.length = n ∧
    h = .tag :: .num (total bs : Nat) :: .num n :: bs ∧
    (∀ s ∈ bs, s = .undef ∨ ∃ l, s = .bucket l) ∧
    (∀ i s, bs[i]? = some s → ∀ e ∈ s.entries, S e.1 ∧ place hash n e.1 = i) ∧
    (∀ s ∈ bs, (s.entries.map (·.1)).Nodup) ∧
    (∀ k, S k → ∀ s, bs[place hash n k]? = some s → (assoc k s.entries).map (·.2) = m k)
  dom : ∀ k, (m k).isSome → S k

theorem assoc_some {k : K} {l : List (K × W)} {e : K × W} (h : assoc k l = some e) : e.1 = k ∧ e ∈ l := by
  induction l with
  | nil => simp [assoc] at h
  | cons a l ih =>
    obtain ⟨x, y⟩ := a
    simp only [assoc] at h
    split at h
    · simp at h; rename_i hx; subst h; exact ⟨hx.symm, by simp⟩
    · obtain ⟨h1, h2⟩ := ih h; exact ⟨h1, by simp [h2]⟩

theorem assoc_none {k : K} {l : List (K × W)} : assoc k l = none ↔ k ∉ l.map (·.1) := by
  induction l with
  | nil => simp [assoc]
  | cons a l ih =>
    obtain ⟨x, y⟩ := a
    simp only [assoc, List.map_cons, List.mem_cons, not_or]
    by_cases h : k = x
    · simp [h]
    · simp [h, ih]

theorem assocSet_assoc (k k' : K) (v : W) (l : List (K × W)) :
    (assoc k' (assocSet k v l)).map (·.2) = if k' = k then some v else (assoc k' l).map (·.2) := by
  induction l with
  | nil =>
    simp only [assocSet, assoc]
    by_cases h : k' = k <;> simp [h]
  | cons a l ih =>
    obtain ⟨x, y⟩ := a
    simp only [assocSet]
    by_cases hx : k = x
    · subst hx
      rw [if_pos rfl]
      simp only [assoc]
      by_cases h : k' = k <;> simp [h]
    · rw [if_neg hx]
      simp only [assoc]
      by_cases h : k' = x
      · subst h
        simp [Ne.symm hx]
      · simp only [h, if_false]; exact ih

theorem assocSet_keys (k : K) (v : W) (l : List (K × W)) :
    (assocSet k v l).map (·.1) = if (assoc k l).isNone then l.map (·.1) ++ [k] else l.map (·.1) := by
  induction l with
  | nil => simp [assocSet, assoc]
  | cons a l ih =>
    obtain ⟨x, y⟩ := a
    simp only [assocSet, assoc]
    by_cases hx : k = x
    · simp [hx]
    · simp only [hx, if_false, List.map_cons, ih]
      split <;> simp

theorem assocSet_mem {k : K} {v : W} {l : List (K × W)} {e : K × W} (h : e ∈ assocSet k v l) :
    e.1 = k ∨ e ∈ l := by
  induction l with
  | nil => simp [assocSet] at h; left; rw [h]
  | cons a l ih =>
    obtain ⟨x, y⟩ := a
    simp only [assocSet] at h
    split at h
    · rcases List.mem_cons.mp h with h | h
      · left; rw [h]
      · right; simp [h]
    · rcases List.mem_cons.mp h with h | h
      · right; simp [h]
      · rcases ih h with h | h
        · exact .inl h
        · right; simp [h]

theorem sum_set {l : List Nat} {i : Nat} {x : Nat} (y : Nat) (h : l[i]? = some x) :
    (l.set i y).sum + x = l.sum + y := by
  induction l generalizing i with
  | nil => simp at h
  | cons a l ih =>
    cases i with
    | zero => simp at h; subst h; simp; omega
    | succ i =>
      simp at h
      have := ih h
      simp; omega

theorem sum_slots {bs : List (Slot K W)} {i : Nat} {s : Slot K W} (l : List (K × W)) (h : bs[i]? = some s) :
    total (bs.set i (.bucket l)) + s.entries.length =
      total bs + l.length := by
  unfold total
  rw [List.map_set]
  exact sum_set _ (by rw [List.getElem?_map, h]; rfl)

theorem place_lt (hash : K → Int) {n : Nat} (hn : 0 < n) (k : K) : place hash n k < n := Nat.mod_lt _ hn

theorem mod_place (hash : K → Int) {n : Nat} (hn : 0 < n) {k : K} (hk : 0 ≤ hash k) :
    mod (hash k) n = some (place hash n k : Int) := by
  unfold mod place
  rw [if_neg (by omega)]
  congr 1
  obtain ⟨a, ha⟩ := Int.eq_ofNat_of_zero_le hk
  rw [ha]
  rfl

/-- reading a table that satisfies the invariant -/
theorem read_spec {n c : Nat} {bs : List (Slot K W)} {i : Nat} {s : Slot K W}
    (hs : bs[i]? = some s) :
    capacity (.tag :: .num c :: .num n :: bs) = some (n : Int) ∧
    count (.tag :: .num c :: .num n :: bs) = some (c : Int) ∧
    bucketGet (.tag :: .num c :: .num n :: bs) (i : Int) = some s.entries ∧
    (∀ l, bucketSet (.tag :: .num c :: .num n :: bs) (i : Int) l =
      some (.tag :: .num c :: .num n :: bs.set i (.bucket l))) ∧
    (∀ z, put (.tag :: .num c :: .num n :: bs) 1 (.num z) = some (.tag :: .num z :: .num n :: bs)) := by
  refine ⟨rfl, rfl, ?_, ?_, ?_⟩
  · unfold bucketGet ref
    rw [if_pos (by omega)]
    have : ((i : Int) + 3).toNat = i + 3 := by omega
    rw [this]
    simp only [List.getElem?_cons_succ, hs]
    cases s <;> rfl
  · intro l
    unfold bucketSet put
    have : ((i : Int) + 3).toNat = i + 3 := by omega
    have hl : i < bs.length := (List.getElem?_eq_some_iff.mp hs).1
    rw [this, if_pos ⟨by omega, by simp; omega⟩]
    rfl
  · intro z
    unfold put
    rw [if_pos ⟨by omega, by simp⟩]
    rfl

theorem make_inv (hash : K → Int) (n : Nat) (S : K → Prop) :
    Inv (W := W) hash n S (make n) (fun _ => none) := by
  refine ⟨⟨List.replicate n .undef, by simp, ?_, ?_, ?_, ?_, ?_⟩, by simp⟩
  · unfold make
    have : total (List.replicate n (Slot.undef : Slot K W)) = 0 := by
      simp [total, Slot.entries]
    rw [this]; rfl
  · intro s hs; exact .inl (List.mem_replicate.mp hs).2
  · intro i s hs e he
    have := List.mem_of_getElem? hs
    rw [(List.mem_replicate.mp this).2] at he
    simp [Slot.entries] at he
  · intro s hs
    rw [(List.mem_replicate.mp hs).2]; simp [Slot.entries]
  · intro k _ s hs
    have := List.mem_of_getElem? hs
    rw [(List.mem_replicate.mp this).2]; simp [Slot.entries, assoc]

theorem place_slot {n : Nat} {bs : List (Slot K W)} (hash : K → Int) (hn : 0 < n) (hl : bs.length = n) (k : K) :
    ∃ s, bs[place hash n k]? = some s :=
  ⟨_, List.getElem?_eq_getElem (by rw [hl]; exact place_lt hash hn k)⟩

theorem get_spec {hash : K → Int} {n : Nat} {S : K → Prop} {h : Table K W} {m : K → Option W} (hn : 0 < n)
    (hi : Inv hash n S h m) {k : K} (hk : S k) (hh : 0 ≤ hash k) :
    get hash h k = some ((m k).map (fun v => (k, v))) := by
  obtain ⟨⟨bs, hl, rfl, -, -, -, h6⟩, -⟩ := hi
  obtain ⟨s, hs⟩ := place_slot hash hn hl k
  obtain ⟨r1, r2, r3, -⟩ := read_spec (n := n) (c := total bs) hs
  unfold get
  simp only [r1, Option.bind_eq_bind, Option.bind_some, mod_place hash hn hh, r3]
  congr 1
  have := h6 k hk s hs
  cases ha : assoc k s.entries with
  | none => rw [ha] at this; simp at this; rw [← this]; rfl
  | some e =>
    rw [ha] at this
    simp at this
    rw [← this]
    have := (assoc_some ha).1
    rw [← this]; rfl

theorem entries_of_assoc {s : Slot K W} {k : K} (h : assoc k s.entries ≠ none) : ∃ l, s = .bucket l := by
  cases s with
  | bucket l => exact ⟨l, rfl⟩
  | _ => exact absurd rfl h

/-- replacing one bucket keeps the invariant -/
theorem replace_inv {hash : K → Int} {n : Nat} {S : K → Prop} {m : K → Option W} (hn : 0 < n)
    {bs : List (Slot K W)} (hl : bs.length = n)
    (h3 : ∀ s ∈ bs, s = .undef ∨ ∃ l, s = .bucket l)
    (h4 : ∀ i s, bs[i]? = some s → ∀ e ∈ s.entries, S e.1 ∧ place hash n e.1 = i)
    (h5 : ∀ s ∈ bs, (s.entries.map (·.1)).Nodup)
    (h6 : ∀ k, S k → ∀ s, bs[place hash n k]? = some s → (assoc k s.entries).map (·.2) = m k)
    (hdom : ∀ k, (m k).isSome → S k)
    {k : K} (hk : S k) {s : Slot K W} (hs : bs[place hash n k]? = some s) (l : List (K × W)) (w : Option W)
    (hl1 : ∀ e ∈ l, S e.1 ∧ place hash n e.1 = place hash n k)
    (hl2 : (l.map (·.1)).Nodup)
    (hl3 : ∀ k', S k' → (assoc k' l).map (·.2) = if k' = k then w else (assoc k' s.entries).map (·.2)) (c : Nat)
    (hc : c + s.entries.length = total bs + l.length) :
    Inv hash n S (.tag :: .num c :: .num n :: bs.set (place hash n k) (.bucket l))
      (fun x => if x = k then w else m x) := by
  have hlt : place hash n k < bs.length := by rw [hl]; exact place_lt hash hn k
  refine ⟨⟨bs.set (place hash n k) (.bucket l), by simpa using hl, ?_, ?_, ?_, ?_, ?_⟩, ?_⟩
  · have := sum_slots l hs
    have : c = total (bs.set (place hash n k) (.bucket l)) := by omega
    rw [this]
  · intro t ht
    rcases List.mem_or_eq_of_mem_set ht with ht | ht
    · exact h3 t ht
    · exact .inr ⟨l, ht⟩
  · intro i t ht e he
    by_cases hi : place hash n k = i
    · subst hi
      rw [List.getElem?_set_self hlt] at ht
      simp at ht; subst ht
      exact hl1 e he
    · rw [List.getElem?_set_ne hi] at ht
      exact h4 i t ht e he
  · intro t ht
    rcases List.mem_or_eq_of_mem_set ht with ht | ht
    · exact h5 t ht
    · rw [ht]; exact hl2
  · intro k' hk' t ht
    by_cases hi : place hash n k = place hash n k'
    · rw [← hi, List.getElem?_set_self hlt] at ht
      simp at ht; subst ht
      have : (assoc k' s.entries).map (·.2) = m k' := h6 k' hk' s (hi ▸ hs)
      have e := hl3 k' hk'
      rw [this] at e
      exact e
    · rw [List.getElem?_set_ne hi] at ht
      have : k' ≠ k := by rintro rfl; exact hi rfl
      simp only [this, if_false]
      exact h6 k' hk' t ht
  · intro k' h'
    by_cases e : k' = k
    · rw [e]; exact hk
    · simp only [e, if_false] at h'; exact hdom k' h'

theorem set_spec {hash : K → Int} {n : Nat} {S : K → Prop} {h : Table K W} {m : K → Option W} (hn : 0 < n)
    (hi : Inv hash n S h m) {k : K} (hk : S k) (hh : 0 ≤ hash k) (v : W) :
    ∃ h', set hash h k v = some h' ∧ Inv hash n S h' (fun x => if x = k then some v else m x) := by
  obtain ⟨⟨bs, hl, rfl, h3, h4, h5, h6⟩, hdom⟩ := hi
  obtain ⟨s, hs⟩ := place_slot hash hn hl k
  obtain ⟨r1, r2, r3, r4, r5⟩ := read_spec (n := n) (c := total bs) hs
  have hmem : s ∈ bs := List.mem_of_getElem? hs
  have hl1 : ∀ e ∈ assocSet k v s.entries, S e.1 ∧ place hash n e.1 = place hash n k := by
    intro e he
    rcases assocSet_mem he with e1 | he
    · rw [e1]; exact ⟨hk, rfl⟩
    · exact h4 _ s hs e he
  have hnod := h5 s hmem
  have hl2 : ((assocSet k v s.entries).map (·.1)).Nodup := by
    rw [assocSet_keys]
    split
    · rename_i hnone
      rw [Option.isNone_iff_eq_none, assoc_none] at hnone
      rw [List.nodup_append]
      refine ⟨hnod, by simp, ?_⟩
      intro a ha b hb hab
      simp at hb
      subst hb; subst hab
      exact hnone ha
    · exact hnod
  have hlen : (assocSet k v s.entries).length = if (assoc k s.entries).isNone then s.entries.length + 1 else s.entries.length := by
    have := congrArg List.length (assocSet_keys k v s.entries)
    rw [List.length_map] at this
    rw [this]
    split <;> simp
  have fin := replace_inv hn hl h3 h4 h5 h6 hdom hk hs (assocSet k v s.entries) (some v) hl1 hl2
    (fun k' _ => assocSet_assoc k k' v s.entries)
  unfold set
  simp only [r1, Option.bind_eq_bind, Option.bind_some, mod_place hash hn hh, r3]
  by_cases hnone : (assoc k s.entries).isNone
  · rw [if_pos hnone] at hlen ⊢
    simp only [r2, Option.bind_some, r5]
    rw [show (total bs : Int) + 1 = ((total bs + 1 : Nat) : Int) by omega]
    refine ⟨_, (read_spec (n := n) (c := total bs + 1) hs).2.2.2.1 _, ?_⟩
    exact fin _ (by omega)
  · rw [if_neg hnone] at hlen ⊢
    refine ⟨_, r4 _, ?_⟩
    exact fin _ (by omega)

theorem del_spec {hash : K → Int} {n : Nat} {S : K → Prop} {h : Table K W} {m : K → Option W} (hn : 0 < n)
    (hi : Inv hash n S h m) {k : K} (hk : S k) (hh : 0 ≤ hash k)
    (hu : ∀ k', S k' → place hash n k' = place hash n k → k' = k) :
    ∃ h', del hash h k = some h' ∧ Inv hash n S h' (fun x => if x = k then none else m x) := by
  have hi0 := hi
  obtain ⟨⟨bs, hl, rfl, h3, h4, h5, h6⟩, hdom⟩ := hi
  obtain ⟨s, hs⟩ := place_slot hash hn hl k
  obtain ⟨r1, r2, r3, r4, r5⟩ := read_spec (n := n) (c := total bs) hs
  have hmem : s ∈ bs := List.mem_of_getElem? hs
  unfold del
  simp only [r1, Option.bind_eq_bind, Option.bind_some, mod_place hash hn hh, r3]
  by_cases hnone : (assoc k s.entries).isNone
  · rw [if_pos hnone]
    refine ⟨_, rfl, ?_⟩
    have : (fun x => if x = k then none else m x) = m := by
      funext x
      by_cases e : x = k
      · subst e
        have := h6 x hk s hs
        rw [Option.isNone_iff_eq_none.mp hnone] at this
        simpa using this
      · simp [e]
    rw [this]
    exact hi0
  · rw [if_neg hnone]
    -- the bucket holds exactly one entry
    have hone : ∃ w, s.entries = [(k, w)] := by
      have hall : ∀ e ∈ s.entries, e.1 = k := fun e he => hu e.1 (h4 _ s hs e he).1 (h4 _ s hs e he).2
      have hnod := h5 s hmem
      cases hb : s.entries with
      | nil => rw [hb] at hnone; simp [assoc] at hnone
      | cons a r =>
        rw [hb] at hall hnod
        cases r with
        | nil => exact ⟨a.2, by rw [← hall a (by simp)]⟩
        | cons b r =>
          have ha := hall a (by simp)
          have hb' := hall b (by simp)
          simp [ha, hb'] at hnod
    obtain ⟨w, hw⟩ := hone
    have hrm : assocRm k s.entries = [] := by rw [hw]; rfl
    simp only [hrm, r4, Option.bind_some]
    obtain ⟨q1, q2, q3, q4, q5⟩ := read_spec (n := n) (c := total bs)
      (bs := bs.set (place hash n k) (.bucket [])) (i := place hash n k) (s := .bucket [])
      (List.getElem?_set_self (by rw [hl]; exact place_lt hash hn k))
    simp only [q2, q5, Option.bind_some]
    refine ⟨_, rfl, ?_⟩
    have hpos : s.entries.length = 1 := by rw [hw]; rfl
    have hle : s.entries.length ≤ total bs := by
      have := sum_slots (i := place hash n k) [] hs
      simp at this
      omega
    rw [show (total bs : Int) - 1 = ((total bs - 1 : Nat) : Int) by omega]
    refine replace_inv hn hl h3 h4 h5 h6 hdom hk hs [] none (by simp) (by simp) ?_ _ (by simp; omega)
    intro k' hk'
    rw [hw]
    simp only [assoc]
    by_cases e : k' = k <;> simp [e]

theorem run_spec {hash : K → Int} {n : Nat} {S : K → Prop} (hn : 0 < n) (hS : ∀ k, S k → 0 ≤ hash k)
    (ops : List (MapOp K W)) (hops : ∀ o ∈ ops, S o.key)
    (hdel : ∀ k, .del k ∈ ops → ∀ k', S k' → place hash n k' = place hash n k → k' = k)
    {h : Table K W} {m : K → Option W} (hi : Inv hash n S h m) :
    ∃ h', run hash h ops = some h' ∧ Inv hash n S h' (mapAfter m ops) := by
  induction ops generalizing h m with
  | nil => exact ⟨h, rfl, hi⟩
  | cons o ops ih =>
    have hk := hops o (by simp)
    cases o with
    | set k v =>
      obtain ⟨h1, e1, i1⟩ := set_spec hn hi hk (hS _ hk) v
      obtain ⟨h2, e2, i2⟩ := ih (fun o ho => hops o (by simp [ho])) (fun k hk => hdel k (by simp [hk])) i1
      refine ⟨h2, ?_, i2⟩
      simp only [run, step]
      have e1 : set hash h k v = some h1 := e1
      rw [e1]; exact e2
    | del k =>
      obtain ⟨h1, e1, i1⟩ := del_spec hn hi hk (hS _ hk) (hdel k (by simp))
      obtain ⟨h2, e2, i2⟩ := ih (fun o ho => hops o (by simp [ho])) (fun k hk => hdel k (by simp [hk])) i1
      refine ⟨h2, ?_, i2⟩
      simp only [run, step]
      have e1 : del hash h k = some h1 := e1
      rw [e1]; exact e2

theorem sum_eq_flatMap (bs : List (Slot K W)) :
    total bs = ((bs.flatMap (·.entries)).map (·.1)).length := by
  induction bs with
  | nil => rfl
  | cons b bs ih =>
    unfold total at ih ⊢
    rw [List.map_cons, List.sum_cons, ih, List.flatMap_cons, List.map_append, List.length_append, List.length_map, List.length_map]

theorem keys_nodup {hash : K → Int} {n : Nat} {bs : List (Slot K W)}
    (h5 : ∀ s ∈ bs, (s.entries.map (·.1)).Nodup) (j : Nat)
    (h4 : ∀ i s, bs[i]? = some s → ∀ e ∈ s.entries, place hash n e.1 = j + i) :
    ((bs.flatMap (·.entries)).map (·.1)).Nodup := by
  induction bs generalizing j with
  | nil => simp
  | cons b bs ih =>
    rw [List.flatMap_cons, List.map_append, List.nodup_append]
    refine ⟨h5 b (by simp), ih (fun s hs => h5 s (by simp [hs])) (j + 1) ?_, ?_⟩
    · intro i s hs e he
      have := h4 (i + 1) s (by simpa using hs) e he
      omega
    · intro a ha c hc hac
      subst hac
      obtain ⟨e, he, rfl⟩ := List.mem_map.mp ha
      obtain ⟨e', he', h'⟩ := List.mem_map.mp hc
      obtain ⟨s, hs, he'⟩ := List.mem_flatMap.mp he'
      obtain ⟨i, hi⟩ := List.getElem?_of_mem hs
      have p1 := h4 0 b (by simp) e he
      have p2 := h4 (i + 1) s (by simpa using hi) e' he'
      rw [h'] at p2
      omega

/-- the count is the number of keys -/
theorem count_spec {hash : K → Int} {n : Nat} {S : K → Prop} {h : Table K W} {m : K → Option W} (hn : 0 < n)
    (hi : Inv hash n S h m) : ∃ c, count h = some c ∧ HasSize m c := by
  obtain ⟨⟨bs, hl, rfl, h3, h4, h5, h6⟩, hdom⟩ := hi
  refine ⟨_, rfl, (bs.flatMap (·.entries)).map (·.1), ?_, ?_, ?_⟩
  · exact keys_nodup (hash := hash) (n := n) h5 0 (fun i s hs e he => by simpa using (h4 i s hs e he).2)
  · intro k
    constructor
    · intro hk
      obtain ⟨e, he, rfl⟩ := List.mem_map.mp hk
      obtain ⟨s, hs, he⟩ := List.mem_flatMap.mp he
      obtain ⟨i, hi⟩ := List.getElem?_of_mem hs
      obtain ⟨hS, hp⟩ := h4 i s hi e he
      rw [← h6 e.1 hS s (hp ▸ hi)]
      cases ha : assoc e.1 s.entries with
      | none => exact absurd (List.mem_map.mpr ⟨e, he, rfl⟩) (assoc_none.mp ha)
      | some _ => rfl
    · intro hk
      have hS := hdom k hk
      obtain ⟨s, hs⟩ := place_slot hash hn hl k
      rw [← h6 k hS s hs] at hk
      cases ha : assoc k s.entries with
      | none => rw [ha] at hk; simp at hk
      | some e =>
        obtain ⟨e1, e2⟩ := assoc_some ha
        exact List.mem_map.mpr ⟨e, List.mem_flatMap.mpr ⟨s, List.mem_of_getElem? hs, e2⟩, e1⟩
  · rw [sum_eq_flatMap]

/-- C50, the part that holds: for any number of buckets and any hash function that is not negative on the keys
of the history, any history of updates runs without a trap, and afterwards every one of these keys has the
value the finite map gives it, and the count is the number of keys present — provided that every key the
history deletes is alone in its bucket. (Without deletions: whatever the collisions.) Missing: the two failures
below. -/
theorem C50_finite_map_partial (hash : K → Int) (n : Nat) (hn : 0 < n) (S : K → Prop)
    (hS : ∀ k, S k → 0 ≤ hash k) (ops : List (MapOp K W)) (hops : ∀ o ∈ ops, S o.key)
    (hdel : ∀ k, .del k ∈ ops → ∀ k', S k' → (hash k').toNat % n = (hash k).toNat % n → k' = k) :
    ∃ h, run hash (make n) ops = some h ∧
      (∀ k, S k → get hash h k = some ((mapAfter (fun _ => none) ops k).map (fun v => (k, v)))) ∧
      ∃ c, count h = some c ∧ HasSize (mapAfter (fun _ => none) ops) c := by
  obtain ⟨h, e, i⟩ := run_spec hn hS ops hops hdel (make_inv hash n S)
  exact ⟨h, e, fun k hk => get_spec hn i hk (hS k hk), count_spec hn i⟩

/-- C50 is false: deleting the second of two keys that share a bucket deletes the first one instead. -/
theorem C50_delete_removes_the_wrong_key (hash : K → Int) (n : Nat) (hn : 0 < n) (a b : K) (v w : W)
    (hab : a ≠ b) (ha : 0 ≤ hash a) (hb : 0 ≤ hash b) (hc : (hash a).toNat % n = (hash b).toNat % n) :
    ∃ h, run hash (make n) [.set a v, .set b w, .del b] = some h ∧
      get hash h a = some none ∧ get hash h b = some (some (b, w)) := by
  have hp : place hash n a = place hash n b := hc
  have hlt := place_lt hash hn a
  have hs0 : (List.replicate n (Slot.undef : Slot K W))[place hash n a]? = some .undef := by
    rw [List.getElem?_replicate, if_pos hlt]
  obtain ⟨r1, r2, r3, r4, r5⟩ := read_spec (n := n) (c := 0) hs0
  have hs1 : ∀ l : List (K × W), ((List.replicate n (Slot.undef : Slot K W)).set (place hash n a) (.bucket l))[place hash n a]? =
      some (.bucket l) := fun l => List.getElem?_set_self (by simpa using hlt)
  have e1 : set hash (make n) a v = some (.tag :: .num 1 :: .num n ::
      (List.replicate n (Slot.undef : Slot K W)).set (place hash n a) (.bucket [(a, v)])) := by
    unfold set make
    rw [show (0 : Int) = ((0 : Nat) : Int) from rfl]
    simp only [r1, Option.bind_eq_bind, Option.bind_some, mod_place hash hn ha, r3, Slot.entries, assoc,
      Option.isNone_none, if_true, r2, r5]
    exact (read_spec (n := n) (c := 1) hs0).2.2.2.1 _
  obtain ⟨p1, p2, p3, p4, p5⟩ := read_spec (n := n) (c := 1) (hs1 [(a, v)])
  have e2 : set hash (.tag :: .num (1 : Nat) :: .num n ::
      (List.replicate n (Slot.undef : Slot K W)).set (place hash n a) (.bucket [(a, v)])) b w =
      some (.tag :: .num (2 : Nat) :: .num n ::
      (List.replicate n (Slot.undef : Slot K W)).set (place hash n a) (.bucket [(a, v), (b, w)])) := by
    unfold set
    have hba : b ≠ a := Ne.symm hab
    simp only [p1, Option.bind_eq_bind, Option.bind_some, mod_place hash hn hb, ← hp, p3, Slot.entries, assoc, hba,
      if_false, Option.isNone_none, if_true, p2, p5]
    have := (read_spec (n := n) (c := 2) (hs1 [(a, v)])).2.2.2.1 (assocSet b w [(a, v)])
    rw [List.set_set] at this
    have e : assocSet b w [(a, v)] = [(a, v), (b, w)] := by simp [assocSet, hba]
    rw [e] at this
    rw [e]
    exact this
  obtain ⟨q1, q2, q3, q4, q5⟩ := read_spec (n := n) (c := 2) (hs1 [(a, v), (b, w)])
  have e3 : del hash (.tag :: .num (2 : Nat) :: .num n ::
      (List.replicate n (Slot.undef : Slot K W)).set (place hash n a) (.bucket [(a, v), (b, w)])) b =
      some (.tag :: .num (1 : Nat) :: .num n ::
      (List.replicate n (Slot.undef : Slot K W)).set (place hash n a) (.bucket [(b, w)])) := by
    unfold del
    have hba : b ≠ a := Ne.symm hab
    simp only [q1, Option.bind_eq_bind, Option.bind_some, mod_place hash hn hb, ← hp, q3, Slot.entries, assoc, hba,
      if_false, if_true, Option.isNone_some, Bool.false_eq_true, assocRm, q4, List.set_set]
    obtain ⟨t1, t2, t3, t4, t5⟩ := read_spec (n := n) (c := 2) (hs1 [(b, w)])
    simp only [t2, Option.bind_some]
    exact t5 _
  refine ⟨.tag :: .num (1 : Nat) :: .num n ::
      (List.replicate n (Slot.undef : Slot K W)).set (place hash n a) (.bucket [(b, w)]), ?_, ?_, ?_⟩
  · have e1 : set hash (make n) a v = some (.tag :: .num (1 : Nat) :: .num n ::
        (List.replicate n (Slot.undef : Slot K W)).set (place hash n a) (.bucket [(a, v)])) := e1
    simp only [run, step, e1, e2, e3, Option.bind_eq_bind, Option.bind_some]
  all_goals
    obtain ⟨t1, t2, t3, t4, t5⟩ := read_spec (n := n) (c := 1) (hs1 [(b, w)])
    unfold get
  · simp only [t1, t3, Option.bind_eq_bind, Option.bind_some, mod_place hash hn ha, Slot.entries, assoc, hab, if_false]
  · simp only [t1, t3, Option.bind_eq_bind, Option.bind_some, mod_place hash hn hb, ← hp, Slot.entries, assoc, if_true]

/-- C50 is false for keys whose hash is negative (a negative number, or a symbol with enough non-ASCII bytes):
storing under a key of hash −1 overwrites the capacity, and every later lookup traps. -/
theorem C50_negative_hash_breaks_the_table (hash : K → Int) (n : Nat) (hn : 2 ≤ n) (k k' : K) (v : W)
    (hk : hash k = -1) :
    ∃ h, run hash (make n) [.set k v] = some h ∧ get hash h k' = none := by
  have hm : mod (-1) (n : Int) = some (-1) := by
    unfold mod
    rw [if_neg (by omega), Int.neg_tmod, Int.tmod_eq_of_lt (by omega) (by omega)]
  refine ⟨.tag :: .num 1 :: .bucket [(k, v)] :: List.replicate n .undef, ?_, rfl⟩
  have c : capacity (make n : Table K W) = some (n : Int) := rfl
  have b : bucketGet (make n : Table K W) (-1) = some [] := rfl
  have d : count (make n : Table K W) = some 0 := rfl
  have e : put (make n : Table K W) 1 (.num (0 + 1)) = some (.tag :: .num 1 :: .num n :: List.replicate n .undef) := by
    unfold put make
    rw [if_pos ⟨by omega, by simp⟩]
    rfl
  have f : bucketSet (.tag :: .num 1 :: .num n :: List.replicate n .undef : Table K W) (-1) [(k, v)] =
      some (.tag :: .num 1 :: .bucket [(k, v)] :: List.replicate n .undef) := by
    unfold bucketSet put
    rw [if_pos ⟨by omega, by simp⟩]
    rfl
  simp only [run, step, set, c, hk, hm, b, assoc, Option.isNone_none, if_true, d, e, f, assocSet,
    Option.bind_eq_bind, Option.bind_some]

/-- the hypotheses of the partial theorem are met: three numeric keys, two of which share a bucket, and the third
is deleted -/
example : (∀ o ∈ ([.set 3 "a", .set 13 "b", .set 4 "c", .del 4, .set 3 "d"] : List (MapOp Int String)),
      o.key ∈ ([3, 13, 4] : List Int)) ∧
    (∀ k, .del k ∈ ([.set 3 "a", .set 13 "b", .set 4 "c", .del 4, .set 3 "d"] : List (MapOp Int String)) →
      ∀ k' ∈ ([3, 13, 4] : List Int), k'.toNat % 10 = k.toNat % 10 → k' = k) := by
  constructor
  · simp [MapOp.key]
  · intro k hk
    simp at hk
    subst hk
    decide

end Cora.Hash
