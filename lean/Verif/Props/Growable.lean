import Verif.Model.Growable
/-
C95: growable vectors.
-/
open Spec.Growable
namespace Cora.Growable

/-- blocks are where there is none, or, if a block is resized, where it is -/
def Proper (A : Allocator) : Prop := ∀ m old n a, A m old n = some a → a ≠ 0 ∧ (m.blocks a = none ∨ old = some a)

/-- the vector holds the sequence, and the rest of memory is `base` -/
structure Holds (base : Nat → Option (List (Option UInt8))) (size : Nat) (v : Vec) (m : Mem) (l : List Elem) : Prop where
  len : v.len = l.length
  room : (l.length : Int) ≤ v.cap
  small : v.cap ≤ intMax
  sizes : ∀ e ∈ l, e.length = size
  mem : (v.data = 0 ∧ v.cap = 0 ∧ m.blocks = base) ∨ (v.data ≠ 0 ∧ base v.data = none ∧ ∃ rest,
    m.blocks = update base v.data (some (l.flatten.map some ++ rest)) ∧ l.flatten.length + rest.length = v.cap.toNat * size)

theorem update_same {m : Nat → Option (List (Option UInt8))} {a : Nat} {b} : update m a b a = b := if_pos rfl
theorem update_twice {m : Nat → Option (List (Option UInt8))} {a : Nat} {b c} : update (update m a b) a c = update m a c := by
  funext x
  simp only [update]
  split <;> rfl
theorem update_back {m : Nat → Option (List (Option UInt8))} {a : Nat} (h : m a = none) : update m a none = m := by
  funext x
  simp only [update]
  split
  · rename_i e; rw [e, h]
  · rfl

theorem flatten_length {size : Nat} : ∀ {l : List Elem}, (∀ e ∈ l, e.length = size) → l.flatten.length = l.length * size
  | [], _ => by simp
  | a :: l, h => by
    rw [List.flatten_cons, List.length_append, flatten_length fun e he => h e (List.mem_cons_of_mem _ he), h a List.mem_cons_self,
      List.length_cons, Nat.add_mul]
    omega

theorem flatten_at {size : Nat} : ∀ {l : List Elem} {i : Nat} (h : i < l.length), (∀ e ∈ l, e.length = size) →
    l.flatten = (l.take i).flatten ++ (l[i] ++ (l.drop (i + 1)).flatten) ∧ (l.take i).flatten.length = i * size := by
  intro l i h hs
  constructor
  · have e : l = l.take i ++ l[i] :: l.drop (i + 1) := by rw [List.getElem_cons_drop, List.take_append_drop]
    conv => lhs; rw [e]
    rw [List.flatten_append, List.flatten_cons]
  · rw [flatten_length fun e he => hs e (List.mem_of_mem_take he), List.length_take, Nat.min_eq_left (Nat.le_of_lt h)]

theorem mapM_some {e : Elem} : (e.map some).mapM id = some e := by
  induction e with
  | nil => rfl
  | cons a e ih => rw [List.map_cons, List.mapM_cons, ih]; rfl

/-- reading an element -/
theorem load_elem {base size v m l} (h : Holds base size v m l) {i : Nat} (hi : i < l.length) : load m v.data (i * size) size = .ok l[i] := by
  rcases h.mem with ⟨_, e, _⟩ | ⟨_, _, rest, hb, hl⟩
  · have := h.room; omega
  · obtain ⟨h1, h2⟩ := flatten_at hi h.sizes
    have h3 : l[i].length = size := h.sizes _ (List.getElem_mem hi)
    have hm : m.blocks v.data = some (((l.take i).flatten).map some ++ (l[i].map some ++ ((l.drop (i + 1)).flatten.map some ++ rest))) := by
      rw [hb, update_same, h1]
      simp [List.append_assoc]
    unfold load
    rw [hm]
    simp only
    rw [if_pos (by simp only [List.length_append, List.length_map]; omega)]
    rw [List.drop_left' ((List.length_map _).trans h2), List.take_left' (by simpa using h3), mapM_some]

/-- writing an element -/
theorem store_elem {base size v m l} (h : Holds base size v m l) {i : Nat} (hi : i < l.length) {e : Elem} (he : e.length = size) :
    ∃ m', store m v.data (i * size) e = .ok m' ∧ Holds base size v m' (l.set i e) := by
  rcases h.mem with ⟨_, e0, _⟩ | ⟨hd, hbase, rest, hb, hl⟩
  · have := h.room; omega
  · obtain ⟨h1, h2⟩ := flatten_at hi h.sizes
    have h3 : l[i].length = size := h.sizes _ (List.getElem_mem hi)
    have hm : m.blocks v.data = some (((l.take i).flatten).map some ++ (l[i].map some ++ ((l.drop (i + 1)).flatten.map some ++ rest))) := by
      rw [hb, update_same, h1]
      simp [List.append_assoc]
    have hset : (l.set i e).flatten = (l.take i).flatten ++ (e ++ (l.drop (i + 1)).flatten) := by
      rw [List.set_eq_take_append_cons_drop, if_pos hi, List.flatten_append, List.flatten_cons]
    unfold store
    rw [hm]
    simp only
    rw [if_pos (by simp only [List.length_append, List.length_map]; omega), List.take_left' ((List.length_map _).trans h2),
      ← List.drop_drop, List.drop_left' ((List.length_map _).trans h2), List.drop_left' (by simp [he, h3])]
    refine ⟨_, rfl, ⟨by simpa using h.len, by simpa using h.room, h.small, ?_, .inr ⟨hd, hbase, rest, ?_, ?_⟩⟩⟩
    · intro x hx
      rcases List.mem_or_eq_of_mem_set hx with hx | rfl
      · exact h.sizes x hx
      · exact he
    · simp only [hb, update_twice, hset, List.map_append, List.append_assoc]
    · rw [← hl, h1, hset]
      simp only [List.length_append]
      omega

/-- room for one more -/
theorem grow_ok {A : Allocator} (hA : Proper A) {base size v m l} (h : Holds base size v m l) (hs : size ≤ 4294967296)
    (hlen : l.length < 1073741824) :
    (∃ v' m', grow A size v m = .ok (v', m') ∧ Holds base size v' m' l ∧ (l.length : Int) < v'.cap ∧
      (v'.cap = v.cap ∨ v'.cap ≤ 2 * (l.length + 1)) ∧ ((l.length : Int) < v.cap → v' = v ∧ m' = m)) ∨
    (grow A size v m = .exit ∧ ∃ m old n, A m old n = none) := by
  unfold grow
  have hroom := h.room
  by_cases hc : v.len ≥ v.cap
  · rw [if_pos hc]
    rw [h.len] at hc
    have hcap : v.cap = l.length := by omega
    have hnew : (if v.cap > 0 then v.cap * 2 else 1) ≤ 2 * (l.length + 1) ∧ (l.length : Int) < (if v.cap > 0 then v.cap * 2 else 1) ∧
        (if v.cap > 0 then v.cap * 2 else 1) ≤ intMax := by
      unfold intMax
      split <;> omega
    generalize (if v.cap > 0 then v.cap * 2 else 1) = nc at hnew ⊢
    obtain ⟨n1, n2, n3⟩ := hnew
    simp only
    rw [if_neg (by omega)]
    have hmod : nc.toNat * size % 18446744073709551616 = nc.toNat * size := by
      apply Nat.mod_eq_of_lt
      have : nc.toNat * size ≤ 2147483647 * 4294967296 := Nat.mul_le_mul (by unfold intMax at n3; omega) hs
      omega
    rw [hmod]
    have hbytes : l.flatten.length ≤ nc.toNat * size := by
      rw [flatten_length h.sizes]
      exact Nat.mul_le_mul_right _ (by omega)
    rcases h.mem with ⟨hd, hz, hb⟩ | ⟨hd, hbase, rest, hb, hl⟩
    · have hnil : l = [] := by
        cases l with
        | nil => rfl
        | cons => simp at hcap; omega
      subst hnil
      unfold realloc
      rw [if_pos hd]
      cases ha : A m none (nc.toNat * size) with
      | none => exact .inr ⟨rfl, _, _, _, ha⟩
      | some a =>
        obtain ⟨a1, a2⟩ := hA _ _ _ _ ha
        rcases a2 with a2 | a2
        · exact .inl ⟨_, _, rfl, ⟨h.len, by simp only; omega, n3, h.sizes, .inr ⟨a1, by rw [← hb]; exact a2,
            List.replicate (nc.toNat * size) none, by simp [hb], by simp⟩⟩, n2, .inr n1, fun hx => by omega⟩
        · cases a2
    · unfold realloc
      have hm : m.blocks v.data = some (l.flatten.map some ++ rest) := by rw [hb, update_same]
      rw [if_neg hd, hm]
      cases ha : A m (some v.data) (nc.toNat * size) with
      | none => exact .inr ⟨by simp only [ha]; rfl, _, _, _, ha⟩
      | some a =>
        simp only [ha, Outcome.bind]
        obtain ⟨a1, a2⟩ := hA _ _ _ _ ha
        have hba : base a = none := by
          rcases a2 with a2 | a2
          · rw [hb] at a2
            simp only [update] at a2
            split at a2
            · cases a2
            · exact a2
          · cases a2
            exact hbase
        have hrest : l.flatten.length + rest.length ≤ nc.toNat * size := by
          rw [hl]
          exact Nat.mul_le_mul_right _ (by omega)
        refine .inl ⟨_, _, rfl, ⟨h.len, by simp only; omega, n3, h.sizes, .inr ⟨a1, hba, rest ++ List.replicate (nc.toNat * size - (l.flatten.length + rest.length)) none, ?_, ?_⟩⟩,
          n2, .inr n1, fun hx => by omega⟩
        · simp only [hb, update_twice, update_back hbase]
          rw [List.take_of_length_le (by rw [List.length_append, List.length_map]; exact hrest), List.length_append, List.length_map,
            List.append_assoc]
        · simp only [List.length_append, List.length_replicate]
          omega
  · rw [if_neg hc]
    rw [h.len] at hc
    exact .inl ⟨v, m, rfl, h, by omega, .inl rfl, fun _ => ⟨rfl, rfl⟩⟩

/-- one more -/
theorem append_ok {A : Allocator} (hA : Proper A) {base size v m l} (h : Holds base size v m l) (hs : size ≤ 4294967296)
    (hlen : l.length < 1073741824) {e : Elem} (he : e.length = size) :
    (∃ v' m', append A size v m e = .ok (v', m') ∧ Holds base size v' m' (l ++ [e]) ∧ (v'.cap = v.cap ∨ v'.cap ≤ 2 * (l.length + 1)) ∧
      ((l.length : Int) < v.cap → v'.cap = v.cap)) ∨
    (append A size v m e = .exit ∧ ∃ m old n, A m old n = none) := by
  unfold append
  rcases grow_ok hA h hs hlen with ⟨v1, m1, h1, h2, h3, h4, h5⟩ | ⟨h1, h2⟩
  · rw [h1]
    simp only [Outcome.bind]
    rcases h2.mem with ⟨_, e0, _⟩ | ⟨hd, hbase, rest, hb, hl⟩
    · omega
    · have hfl := flatten_length h2.sizes
      have hm : m1.blocks v1.data = some (l.flatten.map some ++ rest) := by rw [hb, update_same]
      have hroom : (l.length + 1) * size ≤ v1.cap.toNat * size := Nat.mul_le_mul_right _ (by omega)
      rw [Nat.add_mul] at hroom
      have hln : v1.len.toNat = l.length := by rw [h2.len]; rfl
      unfold store
      rw [hm, hln]
      simp only
      rw [if_pos (by simp only [List.length_append, List.length_map]; omega), List.take_left' ((List.length_map _).trans hfl),
        ← List.drop_drop, List.drop_left' ((List.length_map _).trans hfl)]
      refine .inl ⟨_, _, rfl, ⟨?_, ?_, h2.small, ?_, .inr ⟨hd, hbase, rest.drop e.length, ?_, ?_⟩⟩, h4, fun hx => by rw [(h5 hx).1]⟩
      · simp [h2.len]
      · simp only [List.length_append, List.length_singleton]; omega
      · intro x hx
        rcases List.mem_append.mp hx with hx | hx
        · exact h2.sizes x hx
        · rw [List.mem_singleton.mp hx]; exact he
      · simp [hb, update_twice]
      · simp only [List.flatten_append, List.length_append, List.flatten_cons, List.flatten_nil, List.append_nil, List.length_drop]
        omega
  · rw [h1]
    exact .inr ⟨rfl, h2⟩

/-- operations one after the other -/
theorem run_ok {A : Allocator} (hA : Proper A) {base size} (hs : size ≤ 4294967296) {l ops l2 as n} (hp : Performs l ops l2 as n) :
    ∀ {v m}, Holds base size v m l → n ≤ 1073741824 → (∀ op ∈ ops, ∀ e, op.elem? = some e → e.length = size) →
    (∃ v' m', run A size v m ops = .ok (v', m', as) ∧ Holds base size v' m' l2 ∧ v'.cap ≤ max v.cap (2 * n)) ∨
    (run A size v m ops = .exit ∧ ∃ m old n, A m old n = none) := by
  induction hp with
  | nil l =>
    intro v m h _ _
    exact .inl ⟨v, m, rfl, h, by omega⟩
  | @cons l op l1 a ops l2 as n h1 hrest ih =>
    intro v m h hn hsz
    have hsz' : ∀ op ∈ ops, ∀ e, op.elem? = some e → e.length = size := fun o ho => hsz o (List.mem_cons_of_mem _ ho)
    have hl1 : l1.length ≤ n := by cases hrest <;> omega
    have hgo : (∃ v1 m1, step A size v m op = .ok (v1, m1, a) ∧ Holds base size v1 m1 l1 ∧ (v1.cap = v.cap ∨ v1.cap ≤ 2 * l1.length)) ∨
        (step A size v m op = .exit ∧ ∃ m old n, A m old n = none) := by
      cases op with
      | append e =>
        simp only [perform, Option.some.injEq, Prod.mk.injEq] at h1
        obtain ⟨rfl, rfl⟩ := h1
        rw [List.length_append, List.length_singleton] at hl1
        rcases append_ok hA h hs (by omega) (hsz _ List.mem_cons_self e rfl) with ⟨v1, m1, g1, g2, g3, _⟩ | ⟨g1, g2⟩
        · exact .inl ⟨v1, m1, by simp only [step, g1, Outcome.bind], g2, by simpa using g3⟩
        · exact .inr ⟨by simp only [step, g1, Outcome.bind], g2⟩
      | look i =>
        simp only [perform] at h1
        split at h1
        · rename_i hi
          cases h1
          exact .inl ⟨v, m, by simp only [step, get, load_elem h hi, Outcome.bind], h, .inl rfl⟩
        · cases h1
      | replace i e =>
        simp only [perform] at h1
        split at h1
        · rename_i hi
          cases h1
          obtain ⟨m1, g1, g2⟩ := store_elem h hi (hsz _ List.mem_cons_self e rfl)
          exact .inl ⟨v, m1, by simp only [step, set, g1, Outcome.bind], g2, .inl rfl⟩
        · cases h1
      | pop =>
        simp only [perform] at h1
        split at h1
        · rename_i hne
          cases h1
          have hpos : 0 < l.length := List.length_pos_iff.mpr hne
          have hln : (v.len - 1).toNat = l.length - 1 := by rw [h.len]; omega
          have hlast := load_elem h (i := l.length - 1) (by omega)
          have hflat : l.flatten = l.dropLast.flatten ++ l.getLast hne := by
            conv => lhs; rw [← List.dropLast_concat_getLast hne]
            rw [List.flatten_append]
            simp
          refine .inl ⟨{ v with len := v.len - 1 }, m, ?_, ⟨?_, ?_, h.small, fun e he => h.sizes e (List.dropLast_subset _ he), ?_⟩, .inl rfl⟩
          · simp only [step, pop]
            rw [if_neg (by rw [h.len]; omega), hln, hlast, ← List.getLast_eq_getElem hne]
            rfl
          · simp only [h.len, List.length_dropLast]; omega
          · have := h.room
            simp only [List.length_dropLast]; omega
          · rcases h.mem with ⟨_, e0, _⟩ | ⟨hd, hbase, rest, hb, hl⟩
            · have := h.room; omega
            · refine .inr ⟨hd, hbase, (l.getLast hne).map some ++ rest, ?_, ?_⟩
              · rw [hb, hflat]
                simp
              · rw [← hl, hflat]
                simp only [List.length_append, List.length_map]
                omega
        · cases h1
    rcases hgo with ⟨v1, m1, g1, g2, g3⟩ | ⟨g1, g2⟩
    · rcases ih g2 (by omega) hsz' with ⟨v2, m2, k1, k2, k3⟩ | ⟨k1, k2⟩
      · refine .inl ⟨v2, m2, by simp only [run, g1, k1, Outcome.bind], k2, ?_⟩
        omega
      · exact .inr ⟨by simp only [run, g1, k1, Outcome.bind], k2⟩
    · exact .inr ⟨by simp only [run, g1, Outcome.bind], g2⟩

theorem init_ok {A : Allocator} (hA : Proper A) {m : Mem} {cap size : Nat} (hs : size ≤ 4294967296) (hc : (cap : Int) ≤ intMax)
    (hroom : cap = 0 ∨ (A m none (cap * size)).isSome) : Holds m.blocks size (init A m cap size).1 (init A m cap size).2 [] := by
  have hmod : cap * size % 18446744073709551616 = cap * size := by
    apply Nat.mod_eq_of_lt
    have : cap * size ≤ 2147483647 * 4294967296 := Nat.mul_le_mul (by unfold intMax at hc; omega) hs
    omega
  unfold init
  rw [hmod]
  cases ha : A m none (cap * size) with
  | none =>
    rw [ha] at hroom
    simp at hroom
    subst hroom
    exact ⟨rfl, by simp, hc, by simp, .inl ⟨rfl, rfl, rfl⟩⟩
  | some a =>
    obtain ⟨a1, a2⟩ := hA _ _ _ _ ha
    rcases a2 with a2 | a2
    · exact ⟨rfl, by simp, hc, by simp, .inr ⟨a1, a2, List.replicate (cap * size) none, by simp, by simp⟩⟩
    · cases a2

/-- **C95**. A vector is made with room for `cap` elements, which there is, and then used, in any way that makes sense for a sequence and
with at most 2^30 elements at a time. Then, whatever the allocator does, either it answers as the sequence would, or the program says that
there is no memory and ends, and then the allocator had refused. In the first case nothing was accessed that may not be; all elements are
there; there is room for at most twice as many elements as there ever were, or for `cap`; and freeing the vector leaves memory as it was
before and the vector empty, and it may be freed again. -/
theorem C95_vector {A : Allocator} (hA : Proper A) {m : Mem} {cap size : Nat} (hs : size ≤ 4294967296) (hc : (cap : Int) ≤ intMax)
    (hroom : cap = 0 ∨ (A m none (cap * size)).isSome) {ops : List (Op Elem)} {l : List Elem} {as : List (Option Elem)} {n : Nat}
    (hp : Performs [] ops l as n) (hn : n ≤ 1073741824) (hsz : ∀ op ∈ ops, ∀ e, op.elem? = some e → e.length = size) :
    (∃ v m', run A size (init A m cap size).1 (init A m cap size).2 ops = .ok (v, m', as) ∧ v.len = l.length ∧
      (∀ i (h : i < l.length), get size v m' i = .ok l[i]) ∧ v.cap ≤ max (cap : Int) (2 * n) ∧
      ∃ v0 m0, free v m' = .ok (v0, m0) ∧ m0.blocks = m.blocks ∧ v0.len = 0 ∧ free v0 m0 = .ok (v0, m0)) ∨
    (run A size (init A m cap size).1 (init A m cap size).2 ops = .exit ∧ ∃ m old n, A m old n = none) := by
  have h0 := init_ok hA hs hc hroom
  have hcap : (init A m cap size).1.cap = cap := by unfold init; split <;> rfl
  rcases run_ok hA hs hp h0 hn hsz with ⟨v, m', h1, h2, h3⟩ | h
  · refine .inl ⟨v, m', h1, h2.len, fun i hi => load_elem h2 hi, by rw [hcap] at h3; exact h3, ?_⟩
    unfold free
    rcases h2.mem with ⟨e1, _, e2⟩ | ⟨e1, e2, rest, e3, _⟩
    · rw [if_pos e1]
      exact ⟨_, _, rfl, e2, rfl, rfl⟩
    · rw [if_neg e1, e3, update_same]
      exact ⟨_, _, rfl, by simp only [update_twice, update_back e2], rfl, rfl⟩
  · exact .inr h

/-! ### where the code is wrong -/

/-- the answer of `malloc` is not looked at when a vector is made: the first element is written to where there is no memory -/
theorem C95_init_wrong {A : Allocator} {m : Mem} {cap size : Nat} (hcap : 0 < cap) (h : A m none (cap * size % 18446744073709551616) = none)
    (h0 : m.blocks 0 = none) (e : Elem) : run A size (init A m cap size).1 (init A m cap size).2 [.append e] = .ub := by
  have hi : init A m cap size = (⟨0, 0, cap⟩, m) := by unfold init; rw [h]
  have hg : grow A size ⟨0, 0, cap⟩ m = .ok (⟨0, 0, cap⟩, m) := by
    unfold grow
    rw [if_neg (by simp only; omega)]
  rw [hi]
  simp only [run, step, append, hg, Outcome.bind, store, h0]

theorem run_append {A : Allocator} {size : Nat} : ∀ (ops ops' : List (Op Elem)) (v : Vec) (m : Mem),
    run A size v m (ops ++ ops') = (run A size v m ops).bind fun (v, m, as) => (run A size v m ops').bind fun (v, m, bs) => .ok (v, m, as ++ bs)
  | [], ops', v, m => by
    simp only [List.nil_append, run, Outcome.bind]
    cases run A size v m ops' <;> rfl
  | op :: ops, ops', v, m => by
    simp only [List.cons_append, run]
    cases step A size v m op with
    | ok x =>
      simp only [Outcome.bind, run_append ops ops']
      cases run A size x.1 x.2.1 ops with
      | ok y =>
        simp only [Outcome.bind]
        cases run A size y.1 y.2.1 ops' <;> rfl
      | exit => rfl
      | ub => rfl
    | exit => rfl
    | ub => rfl

/-- as long as there is room nothing is allocated -/
theorem fill {A : Allocator} (hA : Proper A) {base size} (hs : size ≤ 4294967296) : ∀ (es l : List Elem) {v m}, Holds base size v m l →
    ((l.length + es.length : Nat) : Int) ≤ v.cap → l.length + es.length ≤ 1073741824 → (∀ e ∈ es, e.length = size) →
    ∃ v' m' as, run A size v m (es.map .append) = .ok (v', m', as) ∧ Holds base size v' m' (l ++ es) ∧ v'.cap = v.cap
  | [], l, v, m, h, _, _, _ => ⟨v, m, [], rfl, by simpa using h, rfl⟩
  | e :: es, l, v, m, h, hc, hn, hes => by
    rw [List.length_cons] at hc hn
    rcases append_ok hA h hs (by omega) (hes e List.mem_cons_self) with ⟨v1, m1, h1, h2, _, h3⟩ | ⟨h1, _⟩
    · have h3 := h3 (by omega)
      obtain ⟨v2, m2, as, k1, k2, k3⟩ := fill hA hs es (l ++ [e]) h2 (by rw [h3]; simp; omega) (by simp; omega)
        fun x hx => hes x (List.mem_cons_of_mem _ hx)
      exact ⟨v2, m2, none :: as, by simp only [List.map_cons, run, step, h1, Outcome.bind, k1], by simpa using k2, k3.trans h3⟩
    · exfalso
      unfold append at h1
      have hg : grow A size v m = .ok (v, m) := by
        unfold grow
        rw [if_neg (by rw [h.len]; omega)]
      rw [hg] at h1
      have hst : store m v.data (v.len.toNat * size) e ≠ .exit := by
        unfold store
        cases m.blocks v.data with
        | none => simp
        | some b => simp only; split <;> simp
      simp only [Outcome.bind] at h1
      cases hs : store m v.data (v.len.toNat * size) e with
      | ok => rw [hs] at h1; simp at h1
      | exit => exact hst hs
      | ub => rw [hs] at h1; simp at h1

theorem growth_ub {c : Nat} (hbig : intMax < 2 * (c : Int)) (hc : (c : Int) ≤ intMax) (hc' : c ≤ 1073741824) {A : Allocator} (hA : Proper A) {m : Mem}
    {size : Nat} (hs : size ≤ 4294967296) (hroom : (A m none (c * size)).isSome) {e : Elem} (he : e.length = size) :
    run A size (init A m c size).1 (init A m c size).2 ((List.replicate c (.append e)) ++ [.append e]) = .ub := by
  have h0 := init_ok hA (cap := c) hs hc (.inr hroom)
  have hcap : (init A m c size).1.cap = c := by unfold init; split <;> rfl
  obtain ⟨v, m', as, h1, h2, h3⟩ := fill hA hs (List.replicate c e) [] h0 (by rw [hcap]; simp) (by simpa using hc')
    (fun x hx => by rw [List.eq_of_mem_replicate hx]; exact he)
  rw [List.map_replicate] at h1
  rw [run_append, h1]
  rw [hcap] at h3
  have hlen : v.len = c := by rw [h2.len]; simp
  have hpos : (0 : Int) < c := by unfold intMax at hbig; omega
  have hg : grow A size v m' = .ub := by
    unfold grow
    rw [if_pos (by omega)]
    simp only
    rw [if_pos (show v.cap > 0 by omega), if_pos (by omega)]
  simp only [Outcome.bind, run, step, append, hg]

/-- twice the capacity is computed as an `int`: in a vector with room for 2^30 elements, the one after them is not added, however much memory
there is -/
theorem C95_growth_wrong {A : Allocator} (hA : Proper A) {m : Mem} {size : Nat} (hs : size ≤ 4294967296)
    (hroom : (A m none (1073741824 * size)).isSome) {e : Elem} (he : e.length = size) :
    run A size (init A m 1073741824 size).1 (init A m 1073741824 size).2 ((List.replicate 1073741824 (.append e)) ++ [.append e]) = .ub :=
  growth_ub (c := 1073741824) (by decide) (by decide) (Nat.le_refl _) hA hs hroom he

/-! ### a case -/

/-- an allocator that uses every address once and then refuses -/
def once (limit : Nat) : Allocator := fun m _ _ => if m.calls < limit ∧ m.blocks (m.calls + 1) = none then some (m.calls + 1) else none

theorem once_proper (limit : Nat) : Proper (once limit) := by
  intro m old n a h
  simp only [once] at h
  split at h
  · cases h
    rename_i hh
    exact ⟨by omega, .inl hh.2⟩
  · cases h

def empty : Mem := ⟨fun _ => none, 0⟩

/-- elements of two bytes; one place at first; the second is replaced and the third is taken away again -/
def someOps : List (Op Elem) := [.append [1, 2], .append [3, 4], .append [5, 6], .replace 1 [7, 8], .pop, .look 1, .look 0]

theorem someOps_performs : Performs [] someOps [[1, 2], [7, 8]]
    [none, none, none, none, some [5, 6], some [7, 8], some [1, 2]] 3 :=
  .cons (l1 := [[1, 2]]) rfl (.cons (l1 := [[1, 2], [3, 4]]) rfl (.cons (l1 := [[1, 2], [3, 4], [5, 6]]) rfl
    (.cons (l1 := [[1, 2], [7, 8], [5, 6]]) rfl (.cons (l1 := [[1, 2], [7, 8]]) rfl (.cons (l1 := [[1, 2], [7, 8]]) rfl
      (.cons (l1 := [[1, 2], [7, 8]]) rfl (.nil _)))))))

/-- the hypotheses of `C95_vector` hold; three blocks are enough … -/
example := C95_vector (once_proper 9) (m := empty) (cap := 1) (size := 2) (by decide) (by decide) (.inr rfl) someOps_performs (by decide)
  (by
    intro op ho e he
    simp only [someOps, List.mem_cons, List.not_mem_nil, or_false] at ho
    rcases ho with rfl | rfl | rfl | rfl | rfl | rfl | rfl <;> cases he <;> rfl)
/-- … with which the answers come -/
example : ∃ v m, run (once 3) 2 (init (once 3) empty 1 2).1 (init (once 3) empty 1 2).2 someOps =
    .ok (v, m, [none, none, none, none, some [5, 6], some [7, 8], some [1, 2]]) ∧ v.cap = 4 := ⟨_, _, rfl, rfl⟩
/-- with two the program ends -/
example : run (once 2) 2 (init (once 2) empty 1 2).1 (init (once 2) empty 1 2).2 someOps = .exit := rfl
example : run (once 0) 2 (init (once 0) empty 8 2).1 (init (once 0) empty 8 2).2 [.append [1, 2]] = .ub := C95_init_wrong (by decide) rfl rfl _
example := C95_growth_wrong (once_proper 9) (m := empty) (size := 2) (by decide) rfl (e := [1, 2]) rfl

end Cora.Growable
