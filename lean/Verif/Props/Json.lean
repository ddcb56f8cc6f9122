import Verif.Spec.Json
import Verif.Props.Values
/-
C85: what a program finds out about a JSON document is what the document says.
-/
open Spec Spec.JSON
namespace Cora.Json

/-! ### values of the language that stand for documents -/

theorem makeCObj_inv {a o : Obj} (h : makeCObj a = some o) : iscobj o = true ∧ mustCObj o = some a ∧ o ≠ Nil := by
  unfold makeCObj at h
  split at h
  · have hs : a >>> 48 = 0 := by
      unfold makeNaNPtr at h
      split at h
      · assumption
      · cases h
    rw [makeNaNPtr_eq hs] at h
    cases h
    have ht : tagOf (packed a TAG_COBJ) = TAG_COBJ.setWidth 64 := by
      apply BitVec.eq_of_toNat_eq
      rw [tagOf_packed hs _ (by decide)]
    refine ⟨?_, ?_, fun h => ?_⟩
    · show hasTag TAG_COBJ _ = true
      rw [hasTag_packed hs TAG_COBJ TAG_COBJ (by decide) (by decide)]
      exact beq_self_eq_true _
    · rw [mustCObj, if_pos ht, ptrOf_packed hs]
    · rw [h] at ht
      exact absurd ht (by decide)
  · cases h

theorem makeCObj_placed {h : Heap} (hp : Placed h) {a : Obj} {n : Node} (ha : h a = some n) : ∃ o, makeCObj a = some o := by
  obtain ⟨_, h1, h2⟩ := hp a n ha
  have h7 : a &&& TAG_PTR.setWidth 64 = 0 := by
    apply BitVec.eq_of_toNat_eq
    rw [BitVec.toNat_and]
    show a.toNat &&& 7 = 0
    rw [show (7 : Nat) = 2 ^ 3 - 1 from rfl, Nat.and_two_pow_sub_one_eq_mod]
    exact h2
  obtain ⟨o, ho, _⟩ := C01_pack_unpack a h1 TAG_COBJ (by decide)
  exact ⟨o, by rw [makeCObj, if_pos h7, ho]⟩

/-- what is at an address -/
inductive Shape (h : Heap) : Node → Doc → Prop where
  | object {m m'} : m.map (·.1) = m'.map (·.1) → (∀ (i : Nat) k p k' d, m[i]? = some (k, p) → m'[i]? = some (k', d) → Rep h p d) →
      Shape h (.object m) (.object m')
  | array {l l'} : l.length = l'.length → (∀ (i : Nat) p d, l[i]? = some p → l'[i]? = some d → Rep h p d) → Shape h (.array l) (.array l')
  | string (b) : Shape h (.string b) (.string b)
  | integer (n) : Shape h (.integer n) (.integer n)
  | real (b) : Shape h (.real b) (.real b)
  | true : Shape h .true (.bool true)
  | false : Shape h .false (.bool false)
  | null : Shape h .null .null

theorem rep_shape {h : Heap} {a : Obj} {d : Doc} (hr : Rep h a d) : ∃ n, h a = some n ∧ Shape h n d := by
  cases hr with
  | object h1 h2 h3 => exact ⟨_, h1, .object h2 h3⟩
  | array h1 h2 h3 => exact ⟨_, h1, .array h2 h3⟩
  | string h1 => exact ⟨_, h1, .string _⟩
  | integer h1 => exact ⟨_, h1, .integer _⟩
  | real h1 => exact ⟨_, h1, .real _⟩
  | true h1 => exact ⟨_, h1, .true⟩
  | false h1 => exact ⟨_, h1, .false⟩
  | null h1 => exact ⟨_, h1, .null⟩

theorem stands_node {h : Heap} (hp : Placed h) {o : Obj} {d : Doc} (hs : Stands h o d) :
    ∃ a n, iscobj o = true ∧ mustCObj o = some a ∧ o ≠ Nil ∧ h a = some n ∧ behind h a = some (some n) ∧ Shape h n d := by
  obtain ⟨a, ha, hr⟩ := hs
  obtain ⟨h1, h2, h3⟩ := makeCObj_inv ha
  obtain ⟨n, hn, hsh⟩ := rep_shape hr
  exact ⟨a, n, h1, h2, h3, hn, by rw [behind, if_neg (hp a n hn).1, hn]; rfl, hsh⟩

/-! ### questions -/

/-- the predicates and the types they are for -/
def predicates : List ((Heap → Obj → Option Res) × String) :=
  [(jsonIsArray, "array"), (jsonIsObject, "object"), (jsonIsInteger, "integer"), (jsonIsReal, "real"), (jsonIsString, "string"),
    (jsonIsNull, "null"), (jsonIsTrue, "true"), (jsonIsFalse, "false")]

/-- **C85**, types. `json-typeof` gives the name of the type and each predicate is true of exactly the values of its type. -/
theorem C85_type {h : Heap} (hp : Placed h) {o : Obj} {d : Doc} (hs : Stands h o d) :
    jsonTypeOf h o = some (.sym d.type) ∧ ∀ q name, (q, name) ∈ predicates → q h o = some (.obj (if d.type = name then True' else False')) := by
  obtain ⟨a, n, h1, h2, h3, h4, h5, hr⟩ := stands_node hp hs
  constructor
  · cases hr <;> simp [jsonTypeOf, Doc.type, h1, h2, h4]
  · intro q name hq
    simp only [predicates, List.mem_cons, Prod.mk.injEq, List.not_mem_nil, or_false] at hq
    cases hr <;>
      rcases hq with ⟨rfl, rfl⟩ | ⟨rfl, rfl⟩ | ⟨rfl, rfl⟩ | ⟨rfl, rfl⟩ | ⟨rfl, rfl⟩ | ⟨rfl, rfl⟩ | ⟨rfl, rfl⟩ | ⟨rfl, rfl⟩ <;>
      simp [h1, h2, h5, jsonIsArray, jsonIsObject, jsonIsInteger, jsonIsReal, jsonIsString, jsonIsNull, jsonIsTrue, jsonIsFalse, jsonIs, Doc.type, bool]

/-- **C85**, strings and integers. -/
theorem C85_string {h : Heap} (hp : Placed h) {o : Obj} {b : Bytes} (hs : Stands h o (.string b)) : jsonStringValue h o = some (.str b) := by
  obtain ⟨a, n, h1, h2, h3, h4, h5, hr⟩ := stands_node hp hs
  cases hr
  simp_all [jsonStringValue]

/-- Integers are exact as long as doubles hold them. -/
theorem C85_integer_partial {h : Heap} (hp : Placed h) {o : Obj} {n : Int} (hs : Stands h o (.integer n)) (hn : n.natAbs ≤ 2 ^ 53) :
    ∃ w, jsonIntegerValue h o = some (.obj w) ∧ fixnum w = some n := by
  obtain ⟨a, m, h1, h2, h3, h4, h5, hr⟩ := stands_node hp hs
  cases hr
  obtain ⟨w, hw, hf, _⟩ := C02_storage_exact n hn
  exact ⟨w, by simp_all [jsonIntegerValue], hf⟩

/-- 2^53 + 1 in a document becomes 2^53. -/
theorem C85_integer_wrong {h : Heap} (hp : Placed h) {o : Obj} (hs : Stands h o (.integer (2 ^ 53 + 1))) :
    ∃ w, jsonIntegerValue h o = some (.obj w) ∧ fixnum w = some (2 ^ 53) := by
  obtain ⟨a, m, h1, h2, h3, h4, h5, hr⟩ := stands_node hp hs
  cases hr
  obtain ⟨w, hw, hf, _⟩ := C02_storage_exact (2 ^ 53) (by decide)
  have e : makeNumber (2 ^ 53 + 1) = makeNumber (2 ^ 53) := by decide +kernel
  exact ⟨w, by simp_all [jsonIntegerValue], hf⟩

/-- **C85**, sizes. -/
theorem C85_size {h : Heap} (hp : Placed h) {o : Obj} :
    (∀ l, Stands h o (.array l) → l.length ≤ 2 ^ 53 → ∃ w, jsonArraySize h o = some (.obj w) ∧ fixnum w = some l.length) ∧
    (∀ m, Stands h o (.object m) → m.length ≤ 2 ^ 53 → ∃ w, jsonObjectSize h o = some (.obj w) ∧ fixnum w = some m.length) := by
  refine ⟨fun l hs hl => ?_, fun m hs hl => ?_⟩
  · obtain ⟨a, m, h1, h2, h3, h4, h5, hr⟩ := stands_node hp hs
    cases hr
    obtain ⟨w, hw, hf, _⟩ := C02_storage_exact l.length (by omega)
    exact ⟨w, by simp_all [jsonArraySize], hf⟩
  · obtain ⟨a, m', h1, h2, h3, h4, h5, hr⟩ := stands_node hp hs
    cases hr with
    | object h7 _ =>
      have hlen := congrArg List.length h7
      simp only [List.length_map] at hlen
      obtain ⟨w, hw, hf, _⟩ := C02_storage_exact m.length (by omega)
      exact ⟨w, by simp_all [jsonObjectSize], hf⟩

/-! ### steps -/

theorem lookup_both {α β : Type} : ∀ {m : List (Bytes × α)} {m' : List (Bytes × β)}, m.map (·.1) = m'.map (·.1) → ∀ k,
    (m.lookup k = none ∧ m'.lookup k = none) ∨
    ∃ (i : Nat) (p : α) (d : β), m[i]? = some (k, p) ∧ m'[i]? = some (k, d) ∧ m.lookup k = some p ∧ m'.lookup k = some d
  | [], [], _, k => .inl ⟨rfl, rfl⟩
  | [], _ :: _, h, _ => by simp at h
  | _ :: _, [], h, _ => by simp at h
  | (a, x) :: m, (b, y) :: m', h, k => by
    simp only [List.map_cons, List.cons.injEq] at h
    obtain ⟨rfl, h⟩ := h
    by_cases hk : k = a
    · subst hk
      exact .inr ⟨0, x, y, rfl, rfl, by simp, by simp⟩
    · have hk' : (k == a) = false := by simpa using hk
      simp only [List.lookup_cons, hk']
      rcases lookup_both h k with h1 | ⟨i, p, d, h1⟩
      · exact .inl h1
      · exact .inr ⟨i + 1, p, d, by simpa using h1⟩

theorem cname_id {k : Bytes} (h : (0 : UInt8) ∉ k) : cname k = k := by
  induction k with
  | nil => rfl
  | cons c k ih =>
    simp only [List.mem_cons, not_or] at h
    rw [cname, List.takeWhile_cons, if_pos (by simpa using Ne.symm h.1)]
    exact congrArg _ (ih h.2)

theorem fixnum_index {i : Int} (hi : i.natAbs ≤ 2 ^ 53) : ∃ w, makeNumber i = some w ∧ fixnum w = some i := by
  obtain ⟨w, hw, hf, _⟩ := C02_storage_exact i hi
  exact ⟨w, hw, hf⟩

theorem toInt_id {i : Int} (h1 : -(2 : Int) ^ 31 ≤ i) (h2 : i < 2 ^ 31) : toInt i = i := by
  rw [toInt, BitVec.toInt_ofInt, Int.bmod_eq_of_le] <;> omega

theorem toSize_pos {i : Int} (h1 : 0 ≤ i) (h2 : i < 2 ^ 31) : toSize i = i.toNat := by
  rw [toSize, BitVec.toNat_ofInt]
  omega

theorem toSize_neg {i : Int} (h1 : -(2 : Int) ^ 31 ≤ i) (h2 : i < 0) : 2 ^ 31 ≤ toSize i := by
  rw [toSize, BitVec.toNat_ofInt]
  omega

theorem stands_of_rep {h : Heap} (hp : Placed h) {a : Obj} {d : Doc} (hr : Rep h a d) : ∃ o, orNil (some a) = some o ∧ Stands h o d := by
  obtain ⟨n, hn, _⟩ := rep_shape hr
  obtain ⟨o, ho⟩ := makeCObj_placed hp hn
  exact ⟨o, ho, a, ho, hr⟩

/-- **C85**, one step. `json-array-get` gives a value that stands for the element, `json-object-get` one that stands for the member; they
give `()` if there is none. -/
theorem C85_step_partial {h : Heap} (hp : Placed h) {o : Obj} {d : Doc} (hs : Stands h o d) (hd : Plain d) (s : Step) (hg : GoodStep s) :
    ∃ o', into h o s = some o' ∧ match d.step s with
      | none => o' = Nil
      | some d' => Stands h o' d' := by
  obtain ⟨a, n, h1, h2, h3, h4, h5, hr⟩ := stands_node hp hs
  cases s with
  | nth i =>
    obtain ⟨hi1, hi2⟩ := hg
    obtain ⟨w, hw, hf⟩ := fixnum_index (i := i) (by omega)
    have hget : into h o (.nth i) = match n with
        | .array l => orNil l[toSize i]?
        | _ => some Nil := by
      simp only [into, hw, Option.bind_some, jsonArrayGet, h2, hf, h5, toInt_id hi1 hi2]
      cases n <;> rfl
    rw [hget]
    cases hr
    case array l l' hlen h6 =>
      cases hd with
      | array _ hsz =>
      simp only [Doc.step]
      by_cases h0 : 0 ≤ i
      · rw [if_pos h0, toSize_pos h0 hi2]
        cases hl : l[i.toNat]? with
        | none =>
          have : l'[i.toNat]? = none := by
            rw [List.getElem?_eq_none_iff] at hl ⊢
            omega
          rw [this]
          exact ⟨_, rfl, rfl⟩
        | some p =>
          obtain ⟨hlt, _⟩ := List.getElem?_eq_some_iff.mp hl
          have hlt' : i.toNat < l'.length := by omega
          rw [List.getElem?_eq_getElem hlt']
          exact stands_of_rep hp (h6 _ _ _ hl (List.getElem?_eq_getElem hlt'))
      · rw [if_neg h0]
        have : l[toSize i]? = none := by
          rw [List.getElem?_eq_none_iff]
          have := toSize_neg hi1 (by omega)
          omega
        rw [this]
        exact ⟨_, rfl, rfl⟩
    all_goals exact ⟨_, rfl, rfl⟩
  | key k =>
    have hget : into h o (.key k) = match n with
        | .object m => orNil (m.lookup k)
        | _ => some Nil := by
      simp only [into, jsonObjectGet, h2, Option.bind_some, h5, cname_id hg]
      cases n <;> rfl
    rw [hget]
    cases hr
    case object m m' hk h6 =>
      simp only [Doc.step]
      rcases lookup_both hk k with ⟨e1, e2⟩ | ⟨i, p, d, e1, e2, e3, e4⟩
      · rw [e1, e2]
        exact ⟨_, rfl, rfl⟩
      · rw [e3, e4]
        exact stands_of_rep hp (h6 _ _ _ _ _ e1 e2)
    all_goals exact ⟨_, rfl, rfl⟩

theorem lookup_index {β : Type} {m : List (Bytes × β)} {k : Bytes} {d : β} (h : m.lookup k = some d) : ∃ i : Nat, m[i]? = some (k, d) := by
  rcases lookup_both (rfl : m.map (·.1) = m.map (·.1)) k with ⟨e, _⟩ | ⟨i, p, d', e1, _, e3, _⟩
  · rw [h] at e; cases e
  · rw [h] at e3; cases e3; exact ⟨i, e1⟩

theorem plain_step {d d' : Doc} (hd : Plain d) {s : Step} (h : d.step s = some d') : Plain d' := by
  cases hd <;> cases s <;> simp only [Doc.step] at h <;> try cases h
  case object.key m h1 h2 h3 h4 k =>
    obtain ⟨i, hi⟩ := lookup_index h
    exact h1 _ _ _ hi
  case array.nth l h1 h2 i =>
    split at h
    · exact h1 _ _ h
    · cases h

/-- **C85**, paths. A program that walks into a document arrives at a value that stands for the part of the document that is there, or at `()` if
there is none. -/
theorem C85_walk_partial {h : Heap} (hp : Placed h) {o : Obj} {d : Doc} (hs : Stands h o d) (hd : Plain d) (path : List Step)
    (hg : ∀ s ∈ path, GoodStep s) :
    ∃ o', walk h o path = some o' ∧ match d.look path with
      | none => o' = Nil
      | some d' => Stands h o' d' := by
  induction path generalizing o d with
  | nil => exact ⟨o, rfl, hs⟩
  | cons s r ih =>
    obtain ⟨o1, e1, h1⟩ := C85_step_partial hp hs hd s (hg s (by simp))
    simp only [walk, e1, Option.bind_some, Doc.look]
    cases hst : d.step s with
    | none =>
      rw [hst] at h1
      exact ⟨Nil, by rw [if_pos h1], rfl⟩
    | some d' =>
      rw [hst] at h1
      obtain ⟨_, _, _, _, hne, _⟩ := stands_node hp h1
      rw [if_neg hne]
      exact ih h1 (plain_step hd hst) fun s hs => hg s (List.mem_cons_of_mem _ hs)

/-! ### the answers determine the document -/

theorem ask_step {h : Heap} (hp : Placed h) {o o1 : Obj} {d1 : Doc} {s : Step} (e : into h o s = some o1) (hs : Stands h o1 d1) (r : List Step)
    (q : Heap → Obj → Option Res) : ask h o (s :: r) q = ask h o1 r q := by
  obtain ⟨_, _, _, _, hne, _⟩ := stands_node hp hs
  simp only [ask, walk, e, Option.bind_some, if_neg hne]

theorem ask_here {h : Heap} (hp : Placed h) {o : Obj} {d : Doc} (hs : Stands h o d) (q : Heap → Obj → Option Res) : ask h o [] q = q h o := by
  obtain ⟨_, _, _, _, hne, _⟩ := stands_node hp hs
  simp only [ask, walk, Option.bind_some, if_neg hne]

/-- two steps that answer alike: both give `()` or both give a value -/
theorem same_step {h h' : Heap} (hp : Placed h) (hp' : Placed h') {o o' : Obj} {d d' : Doc} (hs : Stands h o d) (hs' : Stands h' o' d')
    (hd : Plain d) (hd' : Plain d') (s : Step) (hg : GoodStep s) (hask : ask h o [s] jsonTypeOf = ask h' o' [s] jsonTypeOf) :
    (d.step s = none ∧ d'.step s = none) ∨
    ∃ o1 o1' d1 d1', into h o s = some o1 ∧ into h' o' s = some o1' ∧ d.step s = some d1 ∧ d'.step s = some d1' ∧ Stands h o1 d1 ∧
      Stands h' o1' d1' := by
  obtain ⟨o1, e1, h1⟩ := C85_step_partial hp hs hd s hg
  obtain ⟨o2, e2, h2⟩ := C85_step_partial hp' hs' hd' s hg
  cases ha : d.step s with
  | none =>
    cases hb : d'.step s with
    | none => exact .inl ⟨rfl, rfl⟩
    | some b =>
      rw [ha] at h1; rw [hb] at h2
      rw [ask_step hp' e2 h2, ask_here hp' h2, (C85_type hp' h2).1] at hask
      simp [ask, walk, e1, h1] at hask
  | some a =>
    cases hb : d'.step s with
    | none =>
      rw [ha] at h1; rw [hb] at h2
      rw [ask_step hp e1 h1, ask_here hp h1, (C85_type hp h1).1] at hask
      simp [ask, walk, e2, h2] at hask
    | some b =>
      rw [ha] at h1; rw [hb] at h2
      exact .inr ⟨o1, o2, a, b, e1, e2, rfl, rfl, h1, h2⟩

/-- **C85**, nothing is lost. If a program gets the same answers from two documents, whatever it asks, they are the same document, but for the
order of the members and for the values of real numbers. -/
theorem C85_determined_partial {h h' : Heap} (hp : Placed h) (hp' : Placed h') {o o' : Obj} {d d' : Doc} (hs : Stands h o d) (hs' : Stands h' o' d')
    (hd : Plain d) (hd' : Plain d')
    (hask : ∀ path, (∀ s ∈ path, GoodStep s) → ∀ q ∈ questions, ask h o path q = ask h' o' path q) : Same d d' := by
  have ht := hask [] (by simp) jsonTypeOf (by simp [questions])
  rw [ask_here hp hs, ask_here hp' hs', (C85_type hp hs).1, (C85_type hp' hs').1] at ht
  simp only [Option.some.injEq, Res.sym.injEq] at ht
  induction hd generalizing o o' d' with
  | @object m h1 h2 h3 h4 ih =>
    cases hd' <;> simp [Doc.type] at ht
    case bool b => cases b <;> simp at ht
    case object m' k1 k2 k3 k4 =>
      have hlen : m.length = m'.length := by
        have e := hask [] (by simp) jsonObjectSize (by simp [questions])
        rw [ask_here hp hs, ask_here hp' hs'] at e
        obtain ⟨w, e1, f1⟩ := (C85_size hp).2 m hs (by omega)
        obtain ⟨w', e2, f2⟩ := (C85_size hp').2 m' hs' (by omega)
        rw [e1, e2] at e
        cases e
        rw [f1] at f2
        exact Int.ofNat.inj (Option.some.inj f2)
      have key : ∀ k, (m.lookup k = none ∧ m'.lookup k = none) ∨ (0 : UInt8) ∉ k := by
        intro k
        by_cases hk : (0 : UInt8) ∈ k
        · left
          constructor
          · cases hl : m.lookup k with
            | none => rfl
            | some d =>
              obtain ⟨i, hi⟩ := lookup_index hl
              exact absurd hk (h2 k (List.mem_map.mpr ⟨_, List.mem_of_getElem? hi, rfl⟩))
          · cases hl : m'.lookup k with
            | none => rfl
            | some d =>
              obtain ⟨i, hi⟩ := lookup_index hl
              exact absurd hk (k2 k (List.mem_map.mpr ⟨_, List.mem_of_getElem? hi, rfl⟩))
        · exact .inr hk
      have step : ∀ k, (0 : UInt8) ∉ k → _ := fun k hk => same_step hp hp' hs hs' (.object h1 h2 h3 h4) (.object k1 k2 k3 k4) (.key k) hk
        (hask [.key k] (fun s hs => by rw [List.mem_singleton] at hs; subst hs; exact hk) jsonTypeOf (by simp [questions]))
      refine .object hlen (fun k => ?_) fun k d d' hd hd' => ?_
      · rcases key k with ⟨e1, e2⟩ | hk
        · rw [e1, e2]
        · rcases step k hk with ⟨e1, e2⟩ | ⟨_, _, _, _, _, _, e1, e2, _⟩ <;> simp only [Doc.step] at e1 e2 <;> rw [e1, e2] <;> rfl
      · rcases key k with ⟨e1, _⟩ | hk
        · rw [hd] at e1; cases e1
        · rcases step k hk with ⟨e1, _⟩ | ⟨o1, o1', d1, d1', g1, g2, e1, e2, s1, s2⟩
          · simp only [Doc.step] at e1
            rw [hd] at e1; cases e1
          · simp only [Doc.step] at e1 e2
            rw [hd] at e1; rw [hd'] at e2
            cases e1; cases e2
            obtain ⟨i, hi⟩ := lookup_index hd
            obtain ⟨j, hj⟩ := lookup_index hd'
            have hall : ∀ path, (∀ s ∈ path, GoodStep s) → ∀ q ∈ questions, ask h o1 path q = ask h' o1' path q := by
              intro path hg q hq
              have := hask (.key k :: path) (fun s hs => (List.mem_cons.mp hs).elim (fun e => e ▸ hk) (hg s)) q hq
              rwa [ask_step hp g1 s1, ask_step hp' g2 s2] at this
            have ht := hall [] (by simp) jsonTypeOf (by simp [questions])
            rw [ask_here hp s1, ask_here hp' s2, (C85_type hp s1).1, (C85_type hp' s2).1] at ht
            exact ih i k d hi s1 s2 (k1 j k d' hj) hall (by simpa using ht)
  | @array l h1 h2 ih =>
    cases hd' <;> simp [Doc.type] at ht
    case bool b => cases b <;> simp at ht
    case array l' k1 k2 =>
      have hlen : l.length = l'.length := by
        have e := hask [] (by simp) jsonArraySize (by simp [questions])
        rw [ask_here hp hs, ask_here hp' hs'] at e
        obtain ⟨w, e1, f1⟩ := (C85_size hp).1 l hs (by omega)
        obtain ⟨w', e2, f2⟩ := (C85_size hp').1 l' hs' (by omega)
        rw [e1, e2] at e
        cases e
        rw [f1] at f2
        exact Int.ofNat.inj (Option.some.inj f2)
      refine .array hlen fun i d d' hd hd' => ?_
      obtain ⟨hlt, _⟩ := List.getElem?_eq_some_iff.mp hd
      have hg0 : GoodStep (.nth i) := ⟨by omega, by omega⟩
      rcases same_step hp hp' hs hs' (.array h1 h2) (.array k1 k2) (.nth i) hg0
        (hask [.nth i] (fun s hs => by rw [List.mem_singleton] at hs; subst hs; exact hg0) jsonTypeOf (by simp [questions])) with ⟨e1, _⟩ | ⟨o1, o1', d1, d1', g1, g2, e1, e2, s1, s2⟩
      · simp [Doc.step, hd] at e1
      · simp [Doc.step, hd] at e1
        simp [Doc.step, hd'] at e2
        subst e1; subst e2
        have hall : ∀ path, (∀ s ∈ path, GoodStep s) → ∀ q ∈ questions, ask h o1 path q = ask h' o1' path q := by
          intro path hg q hq
          have := hask (.nth i :: path) (fun s hs => (List.mem_cons.mp hs).elim (fun e => e ▸ hg0) (hg s)) q hq
          rwa [ask_step hp g1 s1, ask_step hp' g2 s2] at this
        have ht := hall [] (by simp) jsonTypeOf (by simp [questions])
        rw [ask_here hp s1, ask_here hp' s2, (C85_type hp s1).1, (C85_type hp' s2).1] at ht
        exact ih i d hd s1 s2 (k1 i d' hd') hall (by simpa using ht)
  | string b =>
    cases hd' <;> simp [Doc.type] at ht
    case string b' =>
      have e := hask [] (by simp) jsonStringValue (by simp [questions])
      rw [ask_here hp hs, ask_here hp' hs', C85_string hp hs, C85_string hp' hs'] at e
      cases e
      exact .string b
    case bool b => cases b <;> simp at ht
  | @integer n hn =>
    cases hd' <;> simp [Doc.type] at ht
    case integer n' hn' =>
      have e := hask [] (by simp) jsonIntegerValue (by simp [questions])
      rw [ask_here hp hs, ask_here hp' hs'] at e
      obtain ⟨w, e1, f1⟩ := C85_integer_partial hp hs hn
      obtain ⟨w', e2, f2⟩ := C85_integer_partial hp' hs' hn'
      rw [e1, e2] at e
      cases e
      rw [f1] at f2
      cases f2
      exact .integer n
    case bool b => cases b <;> simp at ht
  | real b =>
    cases hd' <;> simp [Doc.type] at ht
    case real b' => exact .real b b'
    case bool b => cases b <;> simp at ht
  | bool b =>
    cases hd' <;> cases b <;> simp [Doc.type] at ht
    all_goals
      subst ht
      exact .bool _
  | null =>
    cases hd' <;> simp [Doc.type] at ht
    case bool b => cases b <;> simp at ht
    case null => exact .null

/-- No function gives the value of a real number: two real numbers answer alike, whatever is asked. -/
theorem C85_real_wrong {h : Heap} (hp : Placed h) {o o' : Obj} {b b' : BitVec 64} (hs : Stands h o (.real b)) (hs' : Stands h o' (.real b'))
    (path : List Step) (q : Heap → Obj → Option Res) (hq : q ∈ questions) : ask h o path q = ask h o' path q := by
  obtain ⟨a, n, h1, h2, h3, h4, h5, hr⟩ := stands_node hp hs
  obtain ⟨a', n', k1, k2, k3, k4, k5, hr'⟩ := stands_node hp hs'
  cases hr
  cases hr'
  cases path with
  | nil =>
    rw [ask_here hp hs, ask_here hp hs']
    simp only [questions, List.mem_cons, List.not_mem_nil, or_false] at hq
    rcases hq with rfl | rfl | rfl | rfl | rfl | rfl | rfl | rfl | rfl | rfl | rfl | rfl | rfl <;>
      simp [h1, h2, h4, h5, k1, k2, k4, k5, jsonTypeOf, jsonIsArray, jsonIsObject, jsonIsInteger, jsonIsReal, jsonIsString, jsonIsNull, jsonIsTrue,
        jsonIsFalse, jsonIs, jsonIntegerValue, jsonStringValue, jsonArraySize, jsonObjectSize]
  | cons s r =>
    have : into h o s = into h o' s := by
      cases s with
      | nth i =>
        cases hi : makeNumber i with
        | none => simp [into, hi]
        | some w =>
          cases hf : fixnum w with
          | none => simp [into, hi, jsonArrayGet, h2, k2, hf]
          | some v => simp [into, hi, jsonArrayGet, h2, k2, hf, h5, k5]
      | key k => simp [into, jsonObjectGet, h2, k2, h5, k5]
    simp only [ask, walk, this]

/-! ### sessions -/

theorem rep_grows {h h' : Heap} (hg : Grows h h') {a : Obj} {d : Doc} (hr : Rep h a d) : Rep h' a d := by
  induction hr with
  | object h1 h2 _ ih => exact .object (hg _ _ h1) h2 ih
  | array h1 h2 _ ih => exact .array (hg _ _ h1) h2 ih
  | string h1 => exact .string (hg _ _ h1)
  | integer h1 => exact .integer (hg _ _ h1)
  | real h1 => exact .real (hg _ _ h1)
  | true h1 => exact .true (hg _ _ h1)
  | false h1 => exact .false (hg _ _ h1)
  | null h1 => exact .null (hg _ _ h1)

/-- **C85**, sessions. Whatever a program has loaded, each result of `json-load-file` still stands for the document that its file contained when it
was loaded; the result was `()` if there was no file or if it was no document. -/
theorem C85_session {parse : Bytes → Option Doc} {l : List (Option Bytes × Obj)} {h : Heap} (hs : Session parse l h) :
    Placed h ∧ ∀ t o, (t, o) ∈ l → match t.bind parse with
      | none => o = Nil
      | some d => Stands h o d := by
  induction hs with
  | start => exact ⟨fun _ _ h => (by cases h), by simp⟩
  | load disk path _ hl ih =>
    cases hl with
    | bad hb =>
      refine ⟨ih.1, fun t o ht => ?_⟩
      rcases List.mem_append.mp ht with ht | ht
      · exact ih.2 t o ht
      · cases List.mem_singleton.mp ht
        rw [hb]
    | ok hb hg hp hst =>
      refine ⟨hp, fun t o ht => ?_⟩
      rcases List.mem_append.mp ht with ht | ht
      · have := ih.2 t o ht
        revert this
        cases t.bind parse with
        | none => exact id
        | some d => exact fun ⟨a, h1, h2⟩ => ⟨a, h1, rep_grows hg h2⟩
      · cases List.mem_singleton.mp ht
        rw [hb]
        exact hst

/-! ### other arguments -/

/-- **C85**, other values. For values that are not documents the predicates are false, the type is `()`, the string is empty and the integer is
0. -/
theorem C85_other (h : Heap) {o : Obj} (ho : iscobj o = false) :
    jsonTypeOf h o = some (.obj Nil) ∧ (∀ q name, (q, name) ∈ predicates → q h o = some (.obj False')) ∧ jsonStringValue h o = some (.str []) ∧
    ∃ w, jsonIntegerValue h o = some (.obj w) ∧ fixnum w = some 0 := by
  refine ⟨by simp [jsonTypeOf, ho], fun q name hq => ?_, by simp [jsonStringValue, ho], ?_⟩
  · simp only [predicates, List.mem_cons, Prod.mk.injEq, List.not_mem_nil, or_false] at hq
    rcases hq with ⟨rfl, rfl⟩ | ⟨rfl, rfl⟩ | ⟨rfl, rfl⟩ | ⟨rfl, rfl⟩ | ⟨rfl, rfl⟩ | ⟨rfl, rfl⟩ | ⟨rfl, rfl⟩ | ⟨rfl, rfl⟩ <;>
      simp [jsonIsArray, jsonIsObject, jsonIsInteger, jsonIsReal, jsonIsString, jsonIsNull, jsonIsTrue, jsonIsFalse, jsonIs, ho, bool]
  · obtain ⟨w, hw, hf⟩ := fixnum_index (i := 0) (by decide)
    exact ⟨w, by simp [jsonIntegerValue, ho, hw], hf⟩

/-- The other functions look at the tag only. So the number 18 is an array without elements, 17 ends the program, and some numbers are taken for addresses. -/
theorem C85_number_wrong (h : Heap) :
    (∃ x w, makeNumber 18 = some x ∧ jsonArraySize h x = some (.obj w) ∧ fixnum w = some 0) ∧
    (∃ x, makeNumber 17 = some x ∧ jsonArraySize h x = none) ∧
    ∃ x, isNumber x = true ∧ mustCObj x = some 0x123450 := by
  have h18 : makeNumber 18 = some 0x4032000000000000#64 := by decide +kernel
  have h17 : makeNumber 17 = some 0x4031000000000000#64 := by decide +kernel
  obtain ⟨w, hw, hf⟩ := fixnum_index (i := 0) (by decide)
  refine ⟨⟨_, w, h18, ?_, hf⟩, ⟨_, h17, ?_⟩, 0x4032000000123450#64, by decide, by decide⟩
  · have : mustCObj 0x4032000000000000#64 = some 0 := by decide
    simp [jsonArraySize, this, behind, hw]
  · have : mustCObj 0x4031000000000000#64 = none := by decide
    simp [jsonArraySize, this]

/-- Indices are cut to 32 bits: the element with the number 2^32 is the first. -/
theorem C85_index_wrong {h : Heap} (hp : Placed h) {o : Obj} {d : Doc} {l : List Doc} (hs : Stands h o (.array (d :: l))) :
    ∃ o', into h o (.nth (2 ^ 32)) = some o' ∧ Stands h o' d := by
  obtain ⟨a, n, h1, h2, h3, h4, h5, hr⟩ := stands_node hp hs
  cases hr with
  | @array as _ hlen h6 =>
  obtain ⟨w, hw, hf⟩ := fixnum_index (i := 2 ^ 32) (by decide)
  have ht : toSize (toInt (2 ^ 32)) = 0 := by decide
  cases as with
  | nil => simp at hlen
  | cons p ps =>
    obtain ⟨o', e, hs'⟩ := stands_of_rep hp (h6 0 p d rfl rfl)
    refine ⟨o', ?_, hs'⟩
    simp only [into, hw, Option.bind_some, jsonArrayGet, h2, hf, h5, ht]
    exact e

/-- Keys are cut at the first NUL: a key that is not there gives the member of another key. -/
theorem C85_key_wrong {h : Heap} (hp : Placed h) {o : Obj} {m : List (Bytes × Doc)} (hs : Stands h o (.object m)) {k : Bytes} {d : Doc}
    (h0 : (0 : UInt8) ∉ k) (hk : m.lookup k = some d) (rest : Bytes) :
    ∃ o', into h o (.key (k ++ 0 :: rest)) = some o' ∧ Stands h o' d := by
  obtain ⟨a, n, h1, h2, h3, h4, h5, hr⟩ := stands_node hp hs
  cases hr with
  | @object as _ hlen h6 =>
  have hc : cname (k ++ 0 :: rest) = k := by
    have : ∀ x ∈ k, decide (x ≠ 0) = true := fun x hx => decide_eq_true fun e => h0 (e ▸ hx)
    rw [cname, List.takeWhile_append_of_pos this]
    simp
  rcases lookup_both hlen k with ⟨_, e⟩ | ⟨i, p, d', e1, e2, e3, e4⟩
  · rw [hk] at e; cases e
  · rw [hk] at e4
    cases e4
    obtain ⟨o', e, hs'⟩ := stands_of_rep hp (h6 _ _ _ _ _ e1 e2)
    refine ⟨o', ?_, hs'⟩
    simp only [into, jsonObjectGet, h2, Option.bind_some, h5, hc, e3]
    exact e

/-! ### an example -/

/-- `{"a": [7, true], "b": "x"}` -/
def someDoc : Doc := .object [([97], .array [.integer 7, .bool true]), ([98], .string [120])]

/-- its values -/
def someHeap : Heap := fun p =>
  if p = 0x1000 then some (.object [([97], 0x1010), ([98], 0x1020)])
  else if p = 0x1010 then some (.array [0x1030, 0x1040])
  else if p = 0x1020 then some (.string [120])
  else if p = 0x1030 then some (.integer 7)
  else if p = 0x1040 then some .true
  else none

theorem someHeap_placed : Placed someHeap := by
  intro p n h
  unfold someHeap at h
  repeat' split at h
  all_goals first | (subst p; exact ⟨by decide, by decide, by decide⟩) | cases h

theorem someDoc_rep : Rep someHeap 0x1000 someDoc := by
  refine .object (m := [([97], 0x1010), ([98], 0x1020)]) rfl rfl fun i k p k' d h1 h2 => ?_
  match i with
  | 0 =>
    cases h1; cases h2
    refine .array (l := [0x1030, 0x1040]) rfl rfl fun i p d h1 h2 => ?_
    match i with
    | 0 => cases h1; cases h2; exact .integer rfl
    | 1 => cases h1; cases h2; exact .true rfl
    | i + 2 => simp at h1
  | 1 => cases h1; cases h2; exact .string rfl
  | i + 2 => simp at h1

theorem someDoc_plain : Plain someDoc := by
  refine .object (fun i k d h => ?_) (by decide) (by decide) (by decide)
  match i with
  | 0 =>
    cases h
    refine .array (fun i d h => ?_) (by decide)
    match i with
    | 0 => cases h; exact .integer (by decide)
    | 1 => cases h; exact .bool _
    | i + 2 => simp at h
  | 1 => cases h; exact .string _
  | i + 2 => simp at h

/-- A session that loads the document: the hypotheses of the theorems above hold of it, and a program that walks to `"a"` and then to the
first element finds 7. -/
example : ∃ o, Session (fun _ => some someDoc) [(some [123], o)] someHeap ∧ Stands someHeap o someDoc ∧ Placed someHeap ∧ Plain someDoc ∧
    ∃ o' w, walk someHeap o [.key [97], .nth 0] = some o' ∧ jsonIntegerValue someHeap o' = some (.obj w) ∧ fixnum w = some 7 := by
  obtain ⟨o, ho⟩ := makeCObj_placed (a := 0x1000) someHeap_placed rfl
  have hs : Stands someHeap o someDoc := ⟨_, ho, someDoc_rep⟩
  refine ⟨o, .load (l := []) (fun _ => some [123]) [102] .start (.ok rfl (fun _ _ h => by cases h) someHeap_placed hs), hs, someHeap_placed,
    someDoc_plain, ?_⟩
  obtain ⟨o', e, h'⟩ := C85_walk_partial someHeap_placed hs someDoc_plain [.key [97], .nth 0] (by
    intro s hs
    rcases List.mem_cons.mp hs with rfl | hs
    · show (0 : UInt8) ∉ [97]; decide
    · rw [List.mem_singleton] at hs; subst hs; exact ⟨by decide, by decide⟩)
  obtain ⟨w, e1, e2⟩ := C85_integer_partial someHeap_placed (n := 7) h' (by decide)
  exact ⟨o', w, e, e1, e2⟩

end Cora.Json
