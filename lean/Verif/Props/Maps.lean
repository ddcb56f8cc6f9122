import Verif.Spec.History
import Verif.Lemmas.Trie
import Verif.Lemmas.NaNBox
/-
Property theorems C12 (hash trie), C13 (interning), C14 (global variables).
-/
namespace Cora
open Spec

/-! ## C12 -/

theorem foldl_get {K V : Type} (hist : List (K × V)) (m : HMap K V) (hm : m.Lawful) (k : K) :
    (hist.foldl (fun m e => m.put e.1 e.2) m).get k = (lastStored m.eq hist k).or (m.get k) := by
  induction hist generalizing m with
  | nil => simp [lastStored]
  | cons e r ih =>
    rw [List.foldl_cons, ih _ (HMap.put_lawful hm _ _), HMap.get_put hm]
    obtain ⟨k', v⟩ := e
    show (lastStored m.eq r k).or _ = _
    simp only [lastStored]
    cases h : lastStored m.eq r k <;> by_cases h2 : m.eq k k' = true <;> simp [h2]

/-- C12. For every key type with an equivalence `eq` and every hash function respecting it — in
particular a constant one, where all 64 bits collide — looking a key up after any sequence of
insertions returns the most recently stored value, and nothing for a key never stored. -/
theorem C12_trie_is_map {K V : Type} (hash : K → BitVec 64) (eq : K → K → Bool)
    (hr : ∀ a, eq a a = true) (hs : ∀ a b, eq a b = true → eq b a = true)
    (ht : ∀ a b c, eq a b = true → eq b c = true → eq a c = true)
    (hh : ∀ a b, eq a b = true → hash a = hash b)
    (hist : List (K × V)) (k : K) :
    (hist.foldl (fun m e => m.put e.1 e.2) (HMap.init hash eq)).get k = lastStored eq hist k := by
  rw [foldl_get hist _ ⟨hr, hs, ht, hh⟩]
  simp only [HMap.init, HMap.get, Trie.lookup]
  cases lastStored eq hist k <;> rfl

/-- C12, for the tables the runtime really uses (FNV-1a hash, `strCmp` equality): keys are told apart
exactly by their bytes. -/
theorem C12_string_table {V : Type} (hist : List (Key × V)) (k : Key) :
    (hist.foldl (fun m e => m.put e.1 e.2) (HMap.init strHash strEQ)).get k =
      lastStored (fun a b => decide (a.1 = b.1)) hist k := by
  have hl : (HMap.init (V := V) strHash strEQ).Lawful := HMap.IsStr.lawful ⟨rfl, rfl⟩
  rw [C12_trie_is_map strHash strEQ hl.refl hl.symm hl.trans hl.hash]
  congr 1
  funext a b
  rw [Bool.eq_iff_iff, strEQ_iff, decide_eq_true_eq, Subtype.ext_iff]

/-- non-vacuity: three different keys that collide in every hash bit, one overwritten -/
example : ((([(1, 10), (2, 20), (3, 30), (2, 21)] : List (Nat × Nat)).foldl (fun m e => m.put e.1 e.2)
    (HMap.init (fun _ => 0x123456789abcdef0#64) (fun a b => a == b))).get 2) = some 21 := by decide

/-! ## C13 -/

attribute [local irreducible] packed

/-- table invariant -/
structure SymTab.Inv (t : SymTab) : Prop where
  str : t.map.IsStr
  mem : ∀ k p, t.map.get k = some p ↔ (p, k) ∈ t.bufs
  nodup : (t.bufs.map (·.1)).Nodup
  low : ∀ e ∈ t.bufs, e.1 >>> 48 = 0#64

theorem SymTab.Inv.inj {t : SymTab} (h : t.Inv) {k k' : Key} {p : Obj} (h1 : t.map.get k = some p)
    (h2 : t.map.get k' = some p) : k = k' := by
  rw [h.mem] at h1 h2
  have hn := h.nodup
  clear h
  generalize t.bufs = l at *
  induction l with
  | nil => simp at h1
  | cons e r ih =>
    simp only [List.map_cons, List.nodup_cons] at hn
    rcases List.mem_cons.mp h1 with rfl | a <;> rcases List.mem_cons.mp h2 with h3 | b
    · exact (Prod.mk.inj h3).2.symm
    · exact absurd (List.mem_map_of_mem (f := (·.1)) b) hn.1
    · subst h3; exact absurd (List.mem_map_of_mem (f := (·.1)) a) hn.1
    · exact ih a b hn.2

theorem SymTab.Inv.deref {t : SymTab} (h : t.Inv) {k : Key} {p : Obj} (h1 : t.map.get k = some p) :
    t.deref p = some k := by
  rw [h.mem] at h1
  have hn := h.nodup
  unfold SymTab.deref
  clear h
  generalize t.bufs = l at *
  induction l with
  | nil => simp at h1
  | cons e r ih =>
    simp only [List.map_cons, List.nodup_cons] at hn
    rcases List.mem_cons.mp h1 with rfl | a
    · simp
    · have : e.1 ≠ p := by
        rintro rfl
        exact hn.1 (List.mem_map_of_mem (f := (·.1)) a)
      rw [List.find?_cons, beq_eq_false_iff_ne.mpr this]
      exact ih a hn.2

theorem intern_spec {t : SymTab} (h : t.Inv) (p : Obj) (s : Key) (hp : p >>> 48 = 0#64)
    (hf : p ∉ t.bufs.map (·.1)) :
    ∃ t' q, intern t p s = some (t', packed q TAG_SYMBOL) ∧ t'.Inv ∧ t'.map.get (ckey s) = some q ∧
      (∀ k r, t.map.get k = some r → t'.map.get k = some r) ∧
      (∀ x, x ∈ t'.bufs.map (·.1) → x ∈ t.bufs.map (·.1) ∨ x = p) := by
  unfold intern
  cases hg : t.map.get (ckey s) with
  | none =>
    simp only [makeNaNPtr_eq hp, Option.bind_eq_bind, Option.bind_some]
    refine ⟨_, p, rfl, ⟨h.str, ?_, ?_, ?_⟩, ?_, ?_, ?_⟩
    · intro k r
      rw [h.str.get_put]
      by_cases e : k = ckey s
      · subst e
        simp only [if_true, Option.some.injEq, List.mem_cons, Prod.mk.injEq]
        constructor
        · intro e; exact Or.inl ⟨e.symm, by trivial⟩
        · rintro (e | e)
          · exact e.1.symm
          · rw [← h.mem, hg] at e; simp at e
      · simp [e, h.mem]
    · simp only [List.map_cons, List.nodup_cons]; exact ⟨hf, h.nodup⟩
    · intro e he
      rcases List.mem_cons.mp he with rfl | he
      · exact hp
      · exact h.low e he
    · rw [h.str.get_put]; simp
    · intro k r hr
      rw [h.str.get_put]
      by_cases e : k = ckey s
      · subst e; rw [hg] at hr; simp at hr
      · simpa [e] using hr
    · intro x hx
      simp only [List.map_cons, List.mem_cons] at hx
      exact hx.symm
  | some q =>
    have hq : q >>> 48 = 0#64 := h.low (q, ckey s) ((h.mem _ _).mp hg)
    simp only [makeNaNPtr_eq hq, Option.bind_eq_bind, Option.bind_some]
    exact ⟨t, q, rfl, h, hg, fun _ _ h => h, fun x h => Or.inl h⟩

theorem internAll_spec (hist : List (Obj × Key)) {t : SymTab} (h : t.Inv)
    (hp : ∀ e ∈ hist, e.1 >>> 48 = 0#64) (hf : ∀ e ∈ hist, e.1 ∉ t.bufs.map (·.1))
    (hn : (hist.map (·.1)).Nodup) :
    ∃ t' os, internAll t hist = some (t', os) ∧ t'.Inv ∧ os.length = hist.length ∧
      (∀ k r, t.map.get k = some r → t'.map.get k = some r) ∧
      ∀ (i : Nat) (e : Obj × Key), hist[i]? = some e → ∃ q, t'.map.get (ckey e.2) = some q ∧
        os[i]? = some (packed q TAG_SYMBOL) := by
  induction hist generalizing t with
  | nil => exact ⟨t, [], rfl, h, rfl, fun _ _ h => h, by simp⟩
  | cons e r ih =>
    obtain ⟨p, s⟩ := e
    simp only [List.map_cons, List.nodup_cons] at hn
    obtain ⟨t1, q, e1, inv1, g1, mono1, new1⟩ :=
      intern_spec h p s (hp (p, s) List.mem_cons_self) (hf (p, s) List.mem_cons_self)
    obtain ⟨t2, os, e2, inv2, len2, mono2, res2⟩ := ih inv1 (fun e he => hp e (List.mem_cons_of_mem _ he))
      (fun e he hx => by
        rcases new1 _ hx with a | a
        · exact hf e (List.mem_cons_of_mem _ he) a
        · exact hn.1 (a ▸ List.mem_map_of_mem (f := (·.1)) he)) hn.2
    refine ⟨t2, packed q TAG_SYMBOL :: os, by simp [internAll, e1, e2], inv2, by simp [len2],
      fun k r hr => mono2 _ _ (mono1 _ _ hr), ?_⟩
    intro i e he
    match i with
    | 0 =>
      simp only [List.getElem?_cons_zero, Option.some.injEq] at he
      subst he
      exact ⟨q, mono2 _ _ g1, by simp⟩
    | i + 1 => exact res2 i e (by simpa using he)

theorem init_inv : SymTab.init.Inv :=
  ⟨⟨rfl, rfl⟩, by intro k p; simp [SymTab.init, HMap.init, HMap.get, Trie.lookup], by simp [SymTab.init],
    by simp [SymTab.init]⟩

theorem cname_eq_self {s : Bytes} (h : ∀ c ∈ s, c ≠ 0) : cname s = s := by
  unfold cname
  induction s with
  | nil => rfl
  | cons a t ih =>
    have := h a List.mem_cons_self
    simp only [List.takeWhile, this, ne_eq, not_false_eq_true, decide_true]
    rw [show List.takeWhile (fun x => decide (x ≠ 0)) t = t from ih (fun c hc => h c (List.mem_cons_of_mem _ hc))]

theorem cname_no_nul (s : Bytes) : ∀ c ∈ cname s, c ≠ 0 := by
  intro c hc
  unfold cname at hc
  induction s with
  | nil => simp at hc
  | cons a t ih =>
    simp only [List.takeWhile] at hc
    split at hc
    · rename_i h
      rcases List.mem_cons.mp hc with rfl | hc
      · simpa using h
      · exact ih hc
    · simp at hc

/-- C13. In every history of `intern` calls (with whatever distinct 48-bit addresses the C allocator
hands out): every call succeeds, two calls return the same symbol exactly when they were given the same
name, and `symbol->string` applied afterwards to any returned symbol gives back the name it was interned
under. Names contain no NUL byte; `symbol->string` traps on names of 255 bytes or more. -/
theorem C13_intern (hist : List (Obj × Key)) (h48 : ∀ e ∈ hist, e.1 >>> 48 = 0#64)
    (hfresh : (hist.map (·.1)).Nodup) (hnul : ∀ e ∈ hist, ∀ c ∈ e.2.1, c ≠ 0) :
    ∃ t os, internAll SymTab.init hist = some (t, os) ∧ os.length = hist.length ∧
      (∀ (i j : Nat) (ei ej : Obj × Key) (oi oj : Obj), hist[i]? = some ei → hist[j]? = some ej → os[i]? = some oi → os[j]? = some oj →
        (oi = oj ↔ ei.2.1 = ej.2.1)) ∧
      (∀ (i : Nat) (e : Obj × Key) (o : Obj), hist[i]? = some e → os[i]? = some o →
        issymbol (fun _ => false) o = true ∧
        symbolToString t o = if e.2.1.length < 255 then some e.2.1 else none) := by
  obtain ⟨t, os, e1, inv, len, _, res⟩ := internAll_spec hist init_inv h48 (by simp [SymTab.init]) hfresh
  have hk : ∀ {i : Nat} {e : Obj × Key}, hist[i]? = some e → ckey e.2 = e.2 := by
    intro i e he
    exact Subtype.ext (cname_eq_self (hnul e (List.mem_of_getElem? he)))
  refine ⟨t, os, e1, len, ?_, ?_⟩
  · intro i j ei ej oi oj hi hj hoi hoj
    obtain ⟨p, gp, op⟩ := res i ei hi
    obtain ⟨q, gq, oq⟩ := res j ej hj
    rw [op] at hoi; rw [oq] at hoj
    obtain rfl := Option.some.inj hoi
    obtain rfl := Option.some.inj hoj
    rw [hk hi] at gp
    rw [hk hj] at gq
    have lp : p >>> 48 = 0#64 := inv.low (p, _) ((inv.mem _ _).mp gp)
    have lq : q >>> 48 = 0#64 := inv.low (q, _) ((inv.mem _ _).mp gq)
    constructor
    · intro e
      have : p = q := by
        have := congrArg ptrOf e
        rwa [ptrOf_packed lp, ptrOf_packed lq] at this
      subst this
      exact congrArg _ (inv.inj gp gq)
    · intro e
      have e' : ei.2 = ej.2 := Subtype.ext e
      rw [e', gq] at gp
      rw [Option.some.inj gp]
  · intro i e o hi ho
    obtain ⟨p, gp, op⟩ := res i e hi
    rw [op] at ho
    obtain rfl := Option.some.inj ho
    rw [hk hi] at gp
    have lp : p >>> 48 = 0#64 := inv.low (p, _) ((inv.mem _ _).mp gp)
    have ht : tagOf (packed p TAG_SYMBOL) = TAG_SYMBOL.setWidth 64 := tagOf_packed lp _ (by decide)
    refine ⟨by simp [issymbol, isobj_packed, ht], ?_⟩
    simp only [symbolToString, ht, if_true, ptrOf_packed lp, inv.deref gp, Option.bind_eq_bind, Option.bind_some]
    rw [cname_eq_self (hnul e (List.mem_of_getElem? hi))]
    by_cases hl : e.2.1.length < 255
    · rw [if_pos (show e.2.1.length + 1 < 256 by omega), if_pos hl]
    · rw [if_neg (show ¬ e.2.1.length + 1 < 256 by omega), if_neg hl]

/-- C13, the boundary of the claim: names are C strings, so a name containing a NUL byte is interned as
its part before the NUL, and `symbol->string` does not give it back. -/
theorem C13_nul_truncates (t : SymTab) (p : Obj) (s : Key) : intern t p s = intern t p (ckey s) := by
  have : ckey (ckey s) = ckey s := Subtype.ext (cname_eq_self (cname_no_nul s.1))
  simp only [intern, this]

/-- non-vacuity: three interns, the first and last of the same name -/
example : ∃ hist : List (Obj × Key), (∀ e ∈ hist, e.1 >>> 48 = 0#64) ∧ (hist.map (·.1)).Nodup ∧
    (∀ e ∈ hist, ∀ c ∈ e.2.1, c ≠ 0) ∧ hist.map (fun e => e.2.1) = [[97], [98], [97]] :=
  ⟨[(16#64, ⟨[97], by decide⟩), (32#64, ⟨[98], by decide⟩), (48#64, ⟨[97], by decide⟩)],
    by decide, by decide, by decide, rfl⟩

/-! ## C14 -/

/-- store invariant -/
structure Globals.Inv (g : Globals) : Prop where
  str : g.env.IsStr
  bound : ∀ s i, g.env.get s = some i → i < g.slots.length
  inj : ∀ s s' i, g.env.get s = some i → g.env.get s' = some i → s = s'

/-- the value a symbol has in the store -/
def Globals.val (g : Globals) : Sym → Obj
  | .interned s =>
    match g.env.get s with
    | some i => g.slots[i]?.getD Undef
    | none => Undef
  | .gensym n => g.cells n

theorem bindSymbol_spec {g : Globals} (h : g.Inv) (s : Key) :
    (bindSymbol g s).1.Inv ∧ (bindSymbol g s).1.env.get s = some (bindSymbol g s).2 ∧
    (∀ x, (bindSymbol g s).1.val x = g.val x) ∧
    (∀ k i, g.env.get k = some i → (bindSymbol g s).1.env.get k = some i) := by
  unfold bindSymbol
  cases hg : g.env.get s with
  | some i => exact ⟨h, hg, fun _ => rfl, fun _ _ h => h⟩
  | none =>
    refine ⟨⟨h.str, ?_, ?_⟩, ?_, ?_, ?_⟩
    · intro k i
      simp only [h.str.get_put]
      by_cases e : k = s
      · simp only [e, if_true, Option.some.injEq, List.length_append, List.length_singleton]; omega
      · simp only [e, if_false, List.length_append, List.length_singleton]
        intro hk; have := h.bound _ _ hk; omega
    · intro k k' i
      simp only [h.str.get_put]
      by_cases e : k = s <;> by_cases e' : k' = s <;> simp only [e, e', if_true, if_false, Option.some.injEq]
      · intro _ _; trivial
      · intro a b; have := h.bound _ _ b; omega
      · intro a b; have := h.bound _ _ a; omega
      · exact h.inj _ _ _
    · simp [h.str.get_put]
    · intro x
      cases x with
      | gensym n => rfl
      | interned k =>
        simp only [Globals.val, h.str.get_put]
        by_cases e : k = s
        · subst e; simp [hg]
        · simp only [e, if_false]
          cases hk : g.env.get k with
          | none => rfl
          | some i =>
            have := h.bound _ _ hk
            simp [List.getElem?_append_left this]
    · intro k i hk
      simp only [h.str.get_put]
      by_cases e : k = s
      · subst e; rw [hg] at hk; simp at hk
      · simpa [e] using hk

theorem symbolGet_spec {g : Globals} (h : g.Inv) (s : Sym) :
    ∃ g', symbolGet g s = some (g', g.val s) ∧ g'.Inv ∧ (∀ x, g'.val x = g.val x) ∧
      (∀ k i, g.env.get k = some i → g'.env.get k = some i) := by
  cases s with
  | gensym n => exact ⟨g, rfl, h, fun _ => rfl, fun _ _ h => h⟩
  | interned k =>
    obtain ⟨h1, h2, h3, h4⟩ := bindSymbol_spec h k
    refine ⟨(bindSymbol g k).1, ?_, h1, h3, h4⟩
    have hb := h1.bound _ _ h2
    have hv := h3 (.interned k)
    simp only [Globals.val, h2] at hv
    simp only [symbolGet, globalRef, Option.bind_eq_bind]
    rw [List.getElem?_eq_getElem hb] at hv ⊢
    simp only [Option.getD_some] at hv
    simp only [Option.bind_some, Globals.val, hv]

theorem globalSet_spec {g : Globals} (h : g.Inv) {k : Key} {i : Nat} (hk : g.env.get k = some i) (v : Obj) :
    ∃ g', globalSet g i v = some g' ∧ g'.Inv ∧ (∀ x, g'.val x = if x = .interned k then v else g.val x) ∧
      g'.env = g.env := by
  have hb := h.bound _ _ hk
  refine ⟨{ g with slots := g.slots.set i v }, by simp [globalSet, hb], ⟨h.str, ?_, h.inj⟩, ?_, rfl⟩
  · intro s j hs; simpa using h.bound s j hs
  · intro x
    cases x with
    | gensym n => simp [Globals.val]
    | interned k' =>
      simp only [Globals.val, Sym.interned.injEq]
      by_cases e : k' = k
      · subst e; simp [hk, hb]
      · simp only [e, if_false]
        cases hk' : g.env.get k' with
        | none => rfl
        | some j =>
          have : i ≠ j := by rintro rfl; exact e (h.inj _ _ _ hk' hk)
          simp [List.getElem?_set_ne this]

theorem primSet_spec {g : Globals} (h : g.Inv) (s : Sym) (v : Obj) :
    ∃ g', primSet g s v = some (g', v) ∧ g'.Inv ∧ (∀ x, g'.val x = if x = s then v else g.val x) ∧
      (∀ k i, g.env.get k = some i → g'.env.get k = some i) := by
  cases s with
  | gensym n =>
    refine ⟨{ g with cells := fun k => if k = n then v else g.cells k }, rfl, ⟨h.str, h.bound, h.inj⟩, ?_,
      fun _ _ h => h⟩
    intro x
    cases x with
    | gensym m => simp [Globals.val]
    | interned k => simp [Globals.val]
  | interned k =>
    obtain ⟨h1, h2, h3, h4⟩ := bindSymbol_spec h k
    obtain ⟨g', e, h5, h6, h7⟩ := globalSet_spec h1 h2 v
    refine ⟨g', by simp [primSet, e], h5, fun x => by rw [h6, h3], fun k i hk => by rw [h7]; exact h4 _ _ hk⟩

theorem run_spec {g : Globals} (h : g.Inv) (op : GOp) :
    ∃ g', op.run g = some g' ∧ g'.Inv ∧
      (∀ x, g'.val x = match op with | .set s v => if x = s then v else g.val x | _ => g.val x) ∧
      (∀ k i, g.env.get k = some i → g'.env.get k = some i) := by
  cases op with
  | set s v =>
    obtain ⟨g', e, h1, h2, h3⟩ := primSet_spec h s v
    exact ⟨g', by simp [GOp.run, e], h1, h2, h3⟩
  | valueOr s d =>
    obtain ⟨g', e, h1, h2, h3⟩ := symbolGet_spec h s
    refine ⟨g', ?_, h1, h2, h3⟩
    simp only [GOp.run, builtinValueOr, e, Option.bind_eq_bind, Option.bind_some]
    split <;> rfl
  | bind s =>
    obtain ⟨h1, h2, h3, h4⟩ := bindSymbol_spec h s
    exact ⟨_, rfl, h1, h3, h4⟩

theorem runG_spec (hist : List GOp) {g : Globals} (h : g.Inv) :
    ∃ g', runG g hist = some g' ∧ g'.Inv ∧ (∀ x, g'.val x = (lastSet hist x).getD (g.val x)) ∧
      (∀ k i, g.env.get k = some i → g'.env.get k = some i) := by
  induction hist generalizing g with
  | nil => exact ⟨g, rfl, h, fun _ => rfl, fun _ _ h => h⟩
  | cons op r ih =>
    obtain ⟨g1, e1, i1, v1, m1⟩ := run_spec h op
    obtain ⟨g2, e2, i2, v2, m2⟩ := ih i1
    refine ⟨g2, by simp [runG, e1, e2], i2, ?_, fun k i hk => m2 _ _ (m1 _ _ hk)⟩
    intro x
    rw [v2, v1]
    cases op with
    | set s v =>
      simp only [lastSet]
      cases lastSet r x <;> by_cases e : x = s <;> simp [e]
    | valueOr s d => rfl
    | bind s => rfl

theorem Globals.init_inv : Globals.init.Inv :=
  ⟨⟨rfl, rfl⟩, by intro s i; simp [Globals.init, HMap.init, HMap.get, Trie.lookup],
    by intro s s' i; simp [Globals.init, HMap.init, HMap.get, Trie.lookup]⟩

theorem Globals.init_val (s : Sym) : Globals.init.val s = initialValue s := by
  cases s <;> simp [Globals.val, initialValue, Globals.init, HMap.init, HMap.get, Trie.lookup]

/-- C14 (a). After every history of `set`, `value-or` and module loading, no step has trapped or touched
memory outside the slot table, and for every symbol: `value` returns the last value set for that very
symbol (sets of other symbols have no effect), trapping if that value is the undefined marker or the
symbol is an interned one never set; `value-or` returns its default in exactly those cases. -/
theorem C14_last_value_set (hist : List GOp) :
    ∃ g, runG Globals.init hist = some g ∧ ∀ (s : Sym) (d : Obj),
      let v := (lastSet hist s).getD (initialValue s)
      (builtinValue g s).map (·.2) = (if v = Undef then none else some v) ∧
      (builtinValueOr g s d).map (·.2) = some (if v = Undef then d else v) := by
  obtain ⟨g, e, inv, hv, _⟩ := runG_spec hist Globals.init_inv
  refine ⟨g, e, ?_⟩
  intro s d
  have hvs := hv s
  rw [Globals.init_val] at hvs
  obtain ⟨g', e', _, _, _⟩ := symbolGet_spec inv s
  simp only [builtinValue, builtinValueOr, e', hvs, Option.bind_eq_bind, Option.bind_some]
  split <;> simp

/-- C14 (b). The slot index of a symbol, once assigned, never changes; an access through an index
remembered from an earlier moment reads and writes exactly the variable of that symbol, and reading or
writing through it never leaves the slot table. -/
theorem C14_slot_stable (before after : List GOp) (s : Key) :
    ∃ g1 g2, runG Globals.init before = some g1 ∧ runG (bindSymbol g1 s).1 after = some g2 ∧
      bindSymbol g2 s = (g2, (bindSymbol g1 s).2) ∧
      globalRef g2 (bindSymbol g1 s).2 =
        some ((lastSet (before ++ after) (.interned s)).getD Undef) ∧
      ∀ v, ∃ g3, globalSet g2 (bindSymbol g1 s).2 v = some g3 ∧ primSet g2 (.interned s) v = some (g3, v) := by
  obtain ⟨g1, e1, inv1, hv1, _⟩ := runG_spec before Globals.init_inv
  obtain ⟨b1, b2, b3, b4⟩ := bindSymbol_spec inv1 s
  obtain ⟨g2, e2, inv2, hv2, m2⟩ := runG_spec after b1
  have hi := m2 _ _ b2
  have hb : bindSymbol g2 s = (g2, (bindSymbol g1 s).2) := by
    conv => lhs; unfold bindSymbol
    rw [hi]
  have hlast : ∀ (a b : List GOp) (x : Sym) (d : Obj),
      (lastSet b x).getD ((lastSet a x).getD d) = (lastSet (a ++ b) x).getD d := by
    intro a b x d
    induction a generalizing d with
    | nil => rfl
    | cons op r ih =>
      cases op with
      | set s v =>
        simp only [List.cons_append, lastSet]
        rw [Option.getD_or, Option.getD_or]
        exact ih _
      | valueOr s d => exact ih _
      | bind s => exact ih _
  refine ⟨g1, g2, e1, e2, hb, ?_, ?_⟩
  · have hbound := inv2.bound _ _ hi
    have hval : g2.val (.interned s) = g2.slots[(bindSymbol g1 s).2] := by
      simp [Globals.val, hi, hbound]
    rw [hv2, b3, hv1, Globals.init_val, hlast] at hval
    simp only [initialValue] at hval
    rw [globalRef, List.getElem?_eq_getElem hbound, hval]
  · intro v
    obtain ⟨g3, e3, _⟩ := globalSet_spec inv2 hi v
    exact ⟨g3, e3, by simp [primSet, hb, e3]⟩

/-- C14, where the code departs from the claim: a symbol made by `gensym` and never set does not trap
when read; it has the value `()`, and `value-or` ignores its default. -/
theorem C14_gensym_unset_reads_nil (n : Nat) (d : Obj) :
    (builtinValue Globals.init (.gensym n)).map (·.2) = some Nil ∧
    (builtinValueOr Globals.init (.gensym n) d).map (·.2) = some Nil := by
  have h := C14_last_value_set []
  obtain ⟨g, e, hv⟩ := h
  simp only [runG, Option.some.injEq] at e
  subst e
  obtain ⟨h1, h2⟩ := hv (.gensym n) d
  have hne : Nil ≠ Undef := by decide
  simp only [lastSet, initialValue, Option.getD_none, hne, if_false] at h1 h2
  exact ⟨h1, h2⟩

/-- non-vacuity: a history with two variables, one overwritten, read through `value` -/
example : ∃ g, runG Globals.init [.bind ⟨[97], by decide⟩, .set (.interned ⟨[98], by decide⟩) 5#64,
      .set (.interned ⟨[97], by decide⟩) 6#64, .set (.interned ⟨[98], by decide⟩) 7#64] = some g ∧
    (builtinValue g (.interned ⟨[98], by decide⟩)).map (·.2) = some 7#64 ∧
    (builtinValue g (.interned ⟨[97], by decide⟩)).map (·.2) = some 6#64 ∧
    (builtinValue g (.interned ⟨[99], by decide⟩)).map (·.2) = none := by
  obtain ⟨g, e, h⟩ := C14_last_value_set [.bind ⟨[97], by decide⟩, .set (.interned ⟨[98], by decide⟩) 5#64,
      .set (.interned ⟨[97], by decide⟩) 6#64, .set (.interned ⟨[98], by decide⟩) 7#64]
  exact ⟨g, e, (h _ Nil).1, (h _ Nil).1, (h _ Nil).1⟩

end Cora
