import Verif.Model.MapCost
import Verif.Spec.MapCost
import Mathlib.Data.Fintype.EquivFin
import Mathlib.Data.Finite.Prod
/-
C113: how many keys a lookup looks at; the hash functions for integers do not collide
-/
namespace Cora.MapCost
open Spec.MapCost

/-! ### integers -/

/-- `x ^ (x >> k)` loses nothing -/
theorem xorShift_inj {w k : Nat} (hk : 0 < k) (x y : BitVec w) (h : x ^^^ (x >>> k) = y ^^^ (y >>> k)) : x = y := by
  have key : ∀ n i, w ≤ i + n → x.getLsbD i = y.getLsbD i := by
    intro n
    induction n with
    | zero => intro i hi; rw [BitVec.getLsbD_of_ge _ _ (by omega), BitVec.getLsbD_of_ge _ _ (by omega)]
    | succ n ih =>
      intro i hi
      have h1 := congrArg (fun z => z.getLsbD i) h
      simp only [BitVec.getLsbD_xor, BitVec.getLsbD_ushiftRight] at h1
      rw [ih (k + i) (by omega)] at h1
      revert h1
      cases x.getLsbD i <;> cases y.getLsbD i <;> cases y.getLsbD (k + i) <;> simp
  apply BitVec.eq_of_getLsbD_eq
  intro i _
  exact key w i (by omega)

/-- multiplying with a number that has an inverse loses nothing -/
theorem mul_inj {w : Nat} (c d : BitVec w) (hcd : c * d = 1#w) (x y : BitVec w) (h : x * c = y * c) : x = y := by
  have := congrArg (· * d) h
  simpa [BitVec.mul_assoc, hcd] using this

theorem lowbias32_inj : NoCollision lowbias32 := by
  intro x y h
  simp only [lowbias32] at h
  have h := xorShift_inj (by omega) _ _ h
  have h := mul_inj 0x846CA68B#32 0x43021123#32 (by decide) _ _ h
  have h := xorShift_inj (by omega) _ _ h
  have h := mul_inj 0x7FEB352D#32 0x1d69e2a5#32 (by decide) _ _ h
  exact xorShift_inj (by omega) _ _ h

theorem mix64_inj : NoCollision mix64 := by
  intro x y h
  simp only [mix64] at h
  have h := xorShift_inj (by omega) _ _ h
  have h := mul_inj 0x94D049BB133111EB#64 0x319642b2d24d8ec3#64 (by decide) _ _ h
  have h := xorShift_inj (by omega) _ _ h
  have h := mul_inj 0xBF58476D1CE4E5B9#64 0x96de1b173f119089#64 (by decide) _ _ h
  exact xorShift_inj (by omega) _ _ h

theorem finite_bv (w : Nat) : Finite (BitVec w) :=
  Finite.of_injective BitVec.toFin fun _ _ h => BitVec.eq_of_toFin_eq h

/-! ### the walk -/

/-- the keys in the tree -/
def keys {K V : Type} : Trie K V → List K
  | .nil => []
  | .node k _ c0 c1 c2 c3 => k :: (keys c0 ++ keys c1 ++ keys c2 ++ keys c3)

/-- the two bits of the hash that choose the child at depth `i` -/
def digit (h : BitVec 64) (i : Nat) : Nat := ((h <<< (2 * i)) >>> 62).toNat

/-- `p` with another value at `d` -/
def upd (p : Nat → Nat) (d j : Nat) : Nat → Nat := fun i => if i = d then j else p i

/-- all hashes in the tree, at depth `d`, begin with `p`; and no key is below itself -/
def WF {K V : Type} (hash : K → BitVec 64) : (Nat → Nat) → Nat → Trie K V → Prop
  | _, _, .nil => True
  | p, d, .node k _ c0 c1 c2 c3 =>
    (∀ i < d, digit (hash k) i = p i) ∧ k ∉ keys c0 ++ keys c1 ++ keys c2 ++ keys c3 ∧
      WF hash (upd p d 0) (d + 1) c0 ∧ WF hash (upd p d 1) (d + 1) c1 ∧ WF hash (upd p d 2) (d + 1) c2 ∧ WF hash (upd p d 3) (d + 1) c3

theorem keys_set {K V : Type} (eq : K → K → Bool) (key : K) (val : V) (t : Trie K V) (h : BitVec 64) :
    ∀ x ∈ keys (t.set eq key val h), x = key ∨ x ∈ keys t := by
  induction t generalizing h with
  | nil => simp [Trie.set, keys]
  | node k v c0 c1 c2 c3 h0 h1 h2 h3 =>
    intro x hx
    simp only [Trie.set] at hx
    split at hx
    · exact Or.inr (by simpa [keys] using hx)
    · split at hx <;> simp only [keys, List.mem_cons, List.mem_append] at hx ⊢
      · have := h0 (h <<< 2) x; grind
      · have := h1 (h <<< 2) x; grind
      · have := h2 (h <<< 2) x; grind
      · have := h3 (h <<< 2) x; grind

theorem digit_shift (h : BitVec 64) (d : Nat) : (((h <<< (2 * d)) >>> 62).toNat) = digit h d := rfl

theorem shift_shift (h : BitVec 64) (d : Nat) : (h <<< (2 * d)) <<< 2 = h <<< (2 * (d + 1)) := by
  rw [← BitVec.shiftLeft_add]
  rfl

theorem digit_lt (h : BitVec 64) (d : Nat) : digit h d < 4 := by
  simp only [digit, BitVec.toNat_ushiftRight, Nat.shiftRight_eq_div_pow]
  have := (h <<< (2 * d)).isLt
  omega

theorem three {n : Nat} (h : n < 4) (h0 : n = 0 → False) (h1 : n = 1 → False) (h2 : n = 2 → False) : n = 3 := by
  match n, h with
  | 0, _ => exact (h0 rfl).elim
  | 1, _ => exact (h1 rfl).elim
  | 2, _ => exact (h2 rfl).elim
  | 3, _ => rfl

theorem upd_agree {h : BitVec 64} {p : Nat → Nat} {d : Nat} (hp : ∀ i < d, digit h i = p i) {j : Nat} (hj : digit h d = j) :
    ∀ i < d + 1, digit h i = upd p d j i := by
  intro i hi
  simp only [upd]
  split
  · rename_i e; rw [e, hj]
  · exact hp i (by omega)

theorem wf_set {K V : Type} (hash : K → BitVec 64) (eq : K → K → Bool) (heq : ∀ a b, eq a b = true ↔ a = b) (key : K) (val : V) (t : Trie K V)
    (p : Nat → Nat) (d : Nat) (hp : ∀ i < d, digit (hash key) i = p i) (hw : WF hash p d t) :
    WF hash p d (t.set eq key val (hash key <<< (2 * d))) := by
  induction t generalizing p d with
  | nil => simpa [Trie.set, WF, keys] using hp
  | node k v c0 c1 c2 c3 h0 h1 h2 h3 =>
    obtain ⟨hk, hnot, w0, w1, w2, w3⟩ := hw
    simp only [Trie.set]
    split
    · exact ⟨hk, hnot, w0, w1, w2, w3⟩
    · rename_i hne
      have hne : k ≠ key := fun e => hne ((heq _ _).mpr e.symm)
      simp only [List.mem_append, not_or] at hnot
      have hlt := digit_lt (hash key) d
      rw [shift_shift]
      split
      · rename_i e
        refine ⟨hk, ?_, h0 _ _ (upd_agree hp e) w0, w1, w2, w3⟩
        have := keys_set eq key val c0 (hash key <<< (2 * (d + 1))) k
        simp only [List.mem_append, not_or]; grind
      · rename_i e
        refine ⟨hk, ?_, w0, h1 _ _ (upd_agree hp e) w1, w2, w3⟩
        have := keys_set eq key val c1 (hash key <<< (2 * (d + 1))) k
        simp only [List.mem_append, not_or]; grind
      · rename_i e
        refine ⟨hk, ?_, w0, w1, h2 _ _ (upd_agree hp e) w2, w3⟩
        have := keys_set eq key val c2 (hash key <<< (2 * (d + 1))) k
        simp only [List.mem_append, not_or]; grind
      · rename_i e0 e1 e2
        have e : digit (hash key) d = 3 := three hlt e0 e1 e2
        refine ⟨hk, ?_, w0, w1, w2, h3 _ _ (upd_agree hp e) w3⟩
        have := keys_set eq key val c3 (hash key <<< (2 * (d + 1))) k
        simp only [List.mem_append, not_or]; grind

/-- what holds of the keys a walk asks for: they are in the tree, they are different, and each has more bits of the hash in common -/
theorem walk_wf {K V : Type} (hash : K → BitVec 64) (eq : K → K → Bool) (key : K) (t : Trie K V)
    (p : Nat → Nat) (d : Nat) (hp : ∀ i < d, digit (hash key) i = p i) (hw : WF hash p d t) :
    ∀ w, (t.walk eq key (hash key <<< (2 * d))).2 = w →
    (∀ x ∈ w, x ∈ keys t) ∧ w.Nodup ∧ ∀ n (hn : n < w.length), ∀ i < d + n, digit (hash w[n]) i = digit (hash key) i := by
  induction t generalizing p d with
  | nil => rintro w rfl; simp [Trie.walk]
  | node k v c0 c1 c2 c3 h0 h1 h2 h3 =>
    obtain ⟨hk, hnot, w0, w1, w2, w3⟩ := hw
    simp only [List.mem_append, not_or] at hnot
    have hkk : ∀ i < d, digit (hash k) i = digit (hash key) i := fun i hi => (hk i hi).trans (hp i hi).symm
    have fin : ∀ (c : Trie K V) (w : List K), (∀ x ∈ keys c, x ∈ keys (Trie.node k v c0 c1 c2 c3)) → k ∉ keys c →
        ((∀ x ∈ w, x ∈ keys c) ∧ w.Nodup ∧ ∀ n (hn : n < w.length), ∀ i < d + 1 + n, digit (hash w[n]) i = digit (hash key) i) →
        (∀ x ∈ k :: w, x ∈ keys (Trie.node k v c0 c1 c2 c3)) ∧ (k :: w).Nodup ∧
        ∀ n (hn : n < (k :: w).length), ∀ i < d + n, digit (hash (k :: w)[n]) i = digit (hash key) i := by
      intro c w hsub hkc ⟨a, b, e⟩
      refine ⟨?_, ?_, ?_⟩
      · intro x hx
        rcases List.mem_cons.mp hx with rfl | hx
        · simp [keys]
        · exact hsub x (a x hx)
      · exact List.nodup_cons.mpr ⟨fun hx => hkc (a k hx), b⟩
      · intro n hn i hi
        cases n with
        | zero => exact hkk i (by omega)
        | succ n => exact e n (by simpa using hn) i (by omega)
    intro w hw
    simp only [Trie.walk] at hw
    split at hw
    · subst hw
      refine ⟨by simp [keys], by simp, ?_⟩
      intro n hn i hi
      have : n = 0 := by simpa using hn
      subst this
      exact hkk i (by omega)
    · have hlt := digit_lt (hash key) d
      rw [shift_shift, digit_shift] at hw
      have h4 : digit (hash key) d = 0 ∨ digit (hash key) d = 1 ∨ digit (hash key) d = 2 ∨ digit (hash key) d = 3 := by omega
      rcases h4 with e | e | e | e <;> rw [e] at hw <;> dsimp only at hw <;> subst hw
      · exact fin c0 _ (by simp only [keys, List.mem_cons, List.mem_append]; grind) hnot.1.1.1 (h0 _ _ (upd_agree hp e) w0 _ rfl)
      · exact fin c1 _ (by simp only [keys, List.mem_cons, List.mem_append]; grind) hnot.1.1.2 (h1 _ _ (upd_agree hp e) w1 _ rfl)
      · exact fin c2 _ (by simp only [keys, List.mem_cons, List.mem_append]; grind) hnot.1.2 (h2 _ _ (upd_agree hp e) w2 _ rfl)
      · exact fin c3 _ (by simp only [keys, List.mem_cons, List.mem_append]; grind) hnot.2 (h3 _ _ (upd_agree hp e) w3 _ rfl)

/-- digits are bits -/
theorem firstBits_of_digits {a b : BitVec 64} {n : Nat} (h : ∀ i < n, digit a i = digit b i) : FirstBits (2 * n) a b := by
  intro m hm
  by_cases h64 : m < 64
  · have hd := BitVec.eq_of_toNat_eq (h (m / 2) (by omega))
    have hb := congrArg (fun z => z.getLsbD (1 - m % 2)) hd
    simp only [BitVec.getLsbD_ushiftRight, BitVec.getLsbD_shiftLeft] at hb
    have e : 62 + (1 - m % 2) - 2 * (m / 2) = 63 - m := by omega
    rw [e] at hb
    have c1 : 62 + (1 - m % 2) < 64 := by omega
    have c2 : ¬ 62 + (1 - m % 2) < 2 * (m / 2) := by omega
    simp only [c1, c2, decide_true, decide_false, Bool.not_false, Bool.true_and] at hb
    simp only [BitVec.getMsbD, h64, decide_true, Bool.true_and]
    exact hb
  · simp [BitVec.getMsbD, h64]

theorem eq_of_firstBits {a b : BitVec 64} {n : Nat} (hn : 64 ≤ n) (h : FirstBits n a b) : a = b := by
  apply BitVec.eq_of_getMsbD_eq
  intro i hi
  exact h i (by omega)

/-- the map after the pairs have been stored, one after the other -/
def filled {K V : Type} (hash : K → BitVec 64) (eq : K → K → Bool) (kvs : List (K × V)) : HMap K V :=
  kvs.foldl (fun m p => m.put p.1 p.2) (HMap.init hash eq)

theorem filled_good {K V : Type} (hash : K → BitVec 64) (eq : K → K → Bool) (heq : ∀ a b, eq a b = true ↔ a = b) (kvs : List (K × V)) :
    let m := filled hash eq kvs
    m.hash = hash ∧ m.eq = eq ∧ WF hash (fun _ => 0) 0 m.root ∧ ∀ x ∈ keys m.root, x ∈ kvs.map (·.1) := by
  suffices H : ∀ (done : List K) (m : HMap K V), m.hash = hash → m.eq = eq → WF hash (fun _ => 0) 0 m.root → (∀ x ∈ keys m.root, x ∈ done) →
      let r := kvs.foldl (fun m p => m.put p.1 p.2) m
      r.hash = hash ∧ r.eq = eq ∧ WF hash (fun _ => 0) 0 r.root ∧ ∀ x ∈ keys r.root, x ∈ done ++ kvs.map (·.1) by
    have := H [] (HMap.init hash eq) rfl rfl trivial (by simp [HMap.init, keys])
    simpa [filled] using this
  induction kvs with
  | nil => intro done m h1 h2 h3 h4; exact ⟨h1, h2, h3, by simpa using h4⟩
  | cons kv kvs ih =>
    intro done m h1 h2 h3 h4
    have := ih (done ++ [kv.1]) (m.put kv.1 kv.2) h1 h2
      (by
        have := wf_set hash eq heq kv.1 kv.2 m.root (fun _ => 0) 0 (by simp) h3
        simpa [HMap.put, h1, h2] using this)
      (by
        intro x hx
        have := keys_set m.eq kv.1 kv.2 m.root (m.hash kv.1) x hx
        simp only [List.mem_append, List.mem_singleton]
        rcases this with e | e
        · exact Or.inr e
        · exact Or.inl (h4 x e))
    simpa using this

/-- The walk is the lookup: it answers what `mapGet` answers. -/
theorem C113_walk {K V : Type} (m : HMap K V) (key : K) : (m.walk key).1 = m.get key := by
  simp only [HMap.walk, HMap.get]
  generalize m.hash key = h
  induction m.root generalizing h with
  | nil => rfl
  | node k v c0 c1 c2 c3 h0 h1 h2 h3 =>
    simp only [Trie.walk, Trie.lookup]
    split
    · rfl
    · generalize (h >>> 62).toNat = n
      match n with
      | 0 => exact h0 _
      | 1 => exact h1 _
      | 2 => exact h2 _
      | _ + 3 => exact h3 _

/-- A lookup finds something exactly if it compares with a key that is equal, and that is then the last one. -/
theorem C113_found {K V : Type} (m : HMap K V) (key : K) :
    (m.get key).isSome = (m.walk key).2.any (m.eq key) ∧ ∀ x ∈ (m.walk key).2.dropLast, m.eq key x = false := by
  simp only [HMap.walk, HMap.get]
  generalize m.hash key = h
  induction m.root generalizing h with
  | nil => simp [Trie.walk, Trie.lookup]
  | node k v c0 c1 c2 c3 h0 h1 h2 h3 =>
    have fin : ∀ (o : Option V) (w : List K), m.eq key k = false → (o.isSome = w.any (m.eq key) ∧ ∀ x ∈ w.dropLast, m.eq key x = false) →
        o.isSome = (k :: w).any (m.eq key) ∧ ∀ x ∈ (k :: w).dropLast, m.eq key x = false := by
      intro o w hk ⟨a, b⟩
      refine ⟨by simp [hk, a], ?_⟩
      cases w with
      | nil => simp
      | cons y w =>
        intro x hx
        simp only [List.dropLast_cons₂, List.mem_cons] at hx
        rcases hx with rfl | hx
        · exact hk
        · exact b x hx
    simp only [Trie.walk, Trie.lookup]
    split
    · rename_i hk
      simp [hk]
    · rename_i hk
      have hk : m.eq key k = false := by simpa using hk
      generalize (h >>> 62).toNat = n
      match n with
      | 0 => exact fin _ _ hk (h0 _)
      | 1 => exact fin _ _ hk (h1 _)
      | 2 => exact fin _ _ hk (h2 _)
      | _ + 3 => exact fin _ _ hk (h3 _)

/-- **C113**: whatever has been stored, and whatever the hash function: the keys a lookup compares with are keys that were stored, no key
twice; and the one it compares with after `n` others has the first `2 n` bits of the hash in common with the key looked up. -/
theorem C113_lookup {K V : Type} (hash : K → BitVec 64) (eq : K → K → Bool) (heq : ∀ a b, eq a b = true ↔ a = b) (kvs : List (K × V)) (key : K) :
    let asked := ((filled hash eq kvs).walk key).2
    (∀ x ∈ asked, x ∈ kvs.map (·.1)) ∧ asked.Nodup ∧ ∀ n (hn : n < asked.length), FirstBits (2 * n) (hash asked[n]) (hash key) := by
  obtain ⟨h1, h2, h3, h4⟩ := filled_good hash eq heq kvs
  have h := walk_wf hash eq key (filled hash eq kvs).root (fun _ => 0) 0 (by simp) h3 _ rfl
  simp only [HMap.walk, h1, h2]
  simp only [Nat.mul_zero, BitVec.shiftLeft_zero, Nat.zero_add] at h
  obtain ⟨a, b, c⟩ := h
  exact ⟨fun x hx => h4 x (a x hx), b, fun n hn => firstBits_of_digits (c n hn)⟩

/-- So when no two keys have the same hash, a lookup compares with at most 33 keys, however many are stored. -/
theorem C113_short {K V : Type} (hash : K → BitVec 64) (hinj : NoCollision hash) (eq : K → K → Bool) (heq : ∀ a b, eq a b = true ↔ a = b)
    (kvs : List (K × V)) (key : K) : ((filled hash eq kvs).walk key).2.length ≤ 33 := by
  obtain ⟨_, hnd, hbits⟩ := C113_lookup hash eq heq kvs key
  false_or_by_contra
  rename_i hlen
  have a := hinj _ _ (eq_of_firstBits (by omega) (hbits 32 (by omega)))
  have b := hinj _ _ (eq_of_firstBits (by omega) (hbits 33 (by omega)))
  have := (List.getElem_inj hnd).mp (a.trans b.symm)
  omega

/-- The hash functions for integers are permutations: no two integers have the same hash, and every number is the hash of an integer. -/
theorem C113_lowbias32 : NoCollision lowbias32 ∧ AllUsed lowbias32 :=
  ⟨lowbias32_inj, (finite_bv 32).injective_iff_surjective.mp fun a b => lowbias32_inj a b⟩

theorem C113_mix64 : NoCollision mix64 ∧ AllUsed mix64 :=
  ⟨mix64_inj, (finite_bv 64).injective_iff_surjective.mp fun a b => mix64_inj a b⟩

/-- In a map from integers with `mix64`, or with `lowbias32` (whose answer becomes a `uint64_t`), a lookup compares with at most 33 keys. -/
theorem C113_integers {V : Type} : (∀ (kvs : List (BitVec 64 × V)) (key : BitVec 64), ((filled mix64 (· == ·) kvs).walk key).2.length ≤ 33) ∧
    (∀ (kvs : List (BitVec 32 × V)) (key : BitVec 32), ((filled (fun x => (lowbias32 x).setWidth 64) (· == ·) kvs).walk key).2.length ≤ 33) := by
  refine ⟨fun kvs key => C113_short _ mix64_inj _ (by simp) kvs key, fun kvs key => C113_short _ ?_ _ (by simp) kvs key⟩
  intro a b h
  apply lowbias32_inj
  have := congrArg BitVec.toNat h
  simp only [BitVec.toNat_setWidth] at this
  apply BitVec.eq_of_toNat_eq
  have := (lowbias32 a).isLt
  have := (lowbias32 b).isLt
  omega

/-- a map with four keys: the lookup of the third one compares with the first, and then with itself -/
example : ((filled mix64 (· == ·) [(1#64, "a"), (2#64, "b"), (3#64, "c"), (4#64, "d")]).walk 3#64) = (some "c", [1#64, 3#64]) := by decide +kernel

end Cora.MapCost
