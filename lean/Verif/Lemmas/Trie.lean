import Verif.Model.Symbols
import Verif.Lemmas.Str
namespace Cora
open Spec

/-- what the map needs of its parameters -/
structure HMap.Lawful {K V : Type} (m : HMap K V) : Prop where
  refl : ∀ a, m.eq a a = true
  symm : ∀ a b, m.eq a b = true → m.eq b a = true
  trans : ∀ a b c, m.eq a b = true → m.eq b c = true → m.eq a c = true
  hash : ∀ a b, m.eq a b = true → m.hash a = m.hash b

theorem lookup_set {K V : Type} {eq : K → K → Bool} (hr : ∀ a, eq a a = true)
    (hs : ∀ a b, eq a b = true → eq b a = true) (ht : ∀ a b c, eq a b = true → eq b c = true → eq a c = true)
    (t : Trie K V) (k k' : K) (v : V) (h h' : BitVec 64) (hh : eq k' k = true → h' = h) :
    (t.set eq k v h).lookup eq k' h' = if eq k' k then some v else t.lookup eq k' h' := by
  induction t generalizing h h' with
  | nil =>
    simp only [Trie.set, Trie.lookup]
    split
    · rfl
    · split <;> rfl
  | node k0 v0 c0 c1 c2 c3 i0 i1 i2 i3 =>
    have hsh : eq k' k = true → h' <<< 2 = h <<< 2 := fun e => by rw [hh e]
    simp only [Trie.set]
    by_cases e0 : eq k k0 = true
    · simp only [e0, if_true, Trie.lookup]
      by_cases e1 : eq k' k0 = true
      · simp [e1, ht _ _ _ e1 (hs _ _ e0)]
      · have e2 : ¬ eq k' k = true := fun e => e1 (ht _ _ _ e e0)
        simp [e1, e2]
    · simp only [e0]
      have e3 : eq k' k0 = true → ¬ eq k' k = true := fun a b => e0 (ht _ _ _ (hs _ _ b) a)
      simp only [Bool.false_eq_true, if_false]
      by_cases e1 : eq k' k0 = true
      · have := e3 e1
        split <;> simp [Trie.lookup, e1, this]
      · by_cases e2 : eq k' k = true
        · have hhh := hh e2
          subst hhh
          rcases hx : (h' >>> 62).toNat with _ | _ | _ | n <;>
            simp [Trie.lookup, e1, e2, hx, i0, i1, i2, i3]
        · rcases hx : (h >>> 62).toNat with _ | _ | _ | n <;>
            rcases hy : (h' >>> 62).toNat with _ | _ | _ | n' <;>
            simp [Trie.lookup, e1, e2, hy, i0 _ _ hsh, i1 _ _ hsh, i2 _ _ hsh, i3 _ _ hsh]

theorem HMap.get_put {K V : Type} {m : HMap K V} (hm : m.Lawful) (k k' : K) (v : V) :
    (m.put k v).get k' = if m.eq k' k then some v else m.get k' :=
  lookup_set hm.refl hm.symm hm.trans _ _ _ _ _ _ (fun e => hm.hash _ _ e)

theorem HMap.put_lawful {K V : Type} {m : HMap K V} (hm : m.Lawful) (k : K) (v : V) : (m.put k v).Lawful :=
  ⟨hm.refl, hm.symm, hm.trans, hm.hash⟩

theorem strEQ_iff (a b : Key) : strEQ a b = true ↔ a = b := by
  unfold strEQ
  rw [beq_iff_eq, (strCmp_spec a.1 b.1 a.2 b.2).2.1, Subtype.ext_iff]

/-- a map with the string functions of the code -/
def HMap.IsStr {V : Type} (m : HMap Key V) : Prop := m.hash = strHash ∧ m.eq = strEQ

theorem HMap.IsStr.lawful {V : Type} {m : HMap Key V} (h : m.IsStr) : m.Lawful := by
  obtain ⟨h1, h2⟩ := h
  constructor
  · intro a; rw [h2, strEQ_iff]
  · intro a b; rw [h2, strEQ_iff, strEQ_iff]; exact Eq.symm
  · intro a b c; rw [h2, strEQ_iff, strEQ_iff, strEQ_iff]; exact Eq.trans
  · intro a b; rw [h2, strEQ_iff]; rintro rfl; rfl

theorem HMap.IsStr.get_put {V : Type} {m : HMap Key V} (h : m.IsStr) (k k' : Key) (v : V) :
    (m.put k v).get k' = if k' = k then some v else m.get k' := by
  rw [HMap.get_put h.lawful, h.2]
  by_cases e : k' = k
  · simp [e, (strEQ_iff k k).mpr rfl]
  · have : ¬ strEQ k' k = true := fun hh => e ((strEQ_iff _ _).mp hh)
    simp [e, this]

theorem HMap.IsStr.put {V : Type} {m : HMap Key V} (h : m.IsStr) (k : Key) (v : V) : (m.put k v).IsStr := h

end Cora
