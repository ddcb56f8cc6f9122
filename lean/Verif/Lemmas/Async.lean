import Verif.Model.Async
/-
The list of connections and the watched modes stay right.
-/
open Spec
namespace Cora.Async

variable {T : Type}

/-- from `o`, whose elements point back to `p`, the `next` fields give `l` -/
def Chain (L : Loop T) : Ref → Option Nat → List Nat → Prop
  | _, o, [] => o = none
  | p, o, c :: l => o = some c ∧ (L.conn c).prev = some p ∧ Chain L (.conn c) (L.conn c).next l

theorem chain_frame {L L' : Loop T} {p : Ref} {o : Option Nat} {l : List Nat}
    (h : ∀ c ∈ l, (L'.conn c).next = (L.conn c).next ∧ (L'.conn c).prev = (L.conn c).prev) (hc : Chain L p o l) :
    Chain L' p o l := by
  induction l generalizing p o with
  | nil => exact hc
  | cons c l ih =>
    obtain ⟨h1, h2, h3⟩ := hc
    have := h c List.mem_cons_self
    refine ⟨h1, by rw [this.2]; exact h2, ?_⟩
    rw [this.1]
    exact ih (fun d hd => h d (List.mem_cons_of_mem _ hd)) h3

theorem chain_prev {L : Loop T} {p : Ref} {o : Option Nat} {l : List Nat} (hc : Chain L p o l) {c : Nat}
    (h : c ∈ l) : ∃ q, (L.conn c).prev = some q := by
  induction l generalizing p o with
  | nil => cases h
  | cons d l ih =>
    rcases List.mem_cons.mp h with rfl | h
    · exact ⟨p, hc.2.1⟩
    · exact ih hc.2.2 h

/-- the `next` of an element is in the list or nothing -/
theorem chain_next {L : Loop T} {p : Ref} {o : Option Nat} {l : List Nat} (hc : Chain L p o l) {c d : Nat}
    (h : c ∈ l) (hd : (L.conn c).next = some d) : d ∈ l := by
  induction l generalizing p o with
  | nil => cases h
  | cons e l ih =>
    rcases List.mem_cons.mp h with rfl | h
    · obtain ⟨_, _, h3⟩ := hc
      rw [hd] at h3
      cases l with
      | nil => cases h3
      | cons f l => cases h3.1; simp
    · exact List.mem_cons_of_mem _ (ih hc.2.2 h)

theorem chain_next_split {L : Loop T} {p : Ref} {o : Option Nat} {a b : List Nat} {c : Nat}
    (hc : Chain L p o (a ++ c :: b)) : Chain L (.conn c) (L.conn c).next b := by
  induction a generalizing p o with
  | nil => exact hc.2.2
  | cons x a ih => exact ih hc.2.2

theorem chain_prev_split {L : Loop T} {p : Ref} {o : Option Nat} {a b : List Nat} {c : Nat}
    (hc : Chain L p o (a ++ c :: b)) : (L.conn c).prev = some p ∨ ∃ e ∈ a, (L.conn c).prev = some (.conn e) := by
  induction a generalizing p o with
  | nil => exact .inl hc.2.1
  | cons x a ih =>
    rcases ih hc.2.2 with h | ⟨e, he, h⟩
    · exact .inr ⟨x, by simp, h⟩
    · exact .inr ⟨e, by simp [he], h⟩

/-- taking one connection out of the chain -/
theorem chain_del {L L' : Loop T} {p : Ref} {o : Option Nat} {a b : List Nat} {c : Nat} {q : Ref}
    (hc : Chain L p o (a ++ c :: b)) (hn : (a ++ c :: b).Nodup) (hp : ∀ e ∈ a ++ c :: b, p ≠ .conn e)
    (hq : (L.conn c).prev = some q)
    (h1 : ∀ e, e ≠ c → (L'.conn e).next = if q = .conn e then (L.conn c).next else (L.conn e).next)
    (h2 : ∀ e, e ≠ c → (L'.conn e).prev = if (L.conn c).next = some e then some q else (L.conn e).prev) :
    Chain L' p (if q = p then (L.conn c).next else o) (a ++ b) := by
  induction a generalizing p o with
  | nil =>
    obtain ⟨_, h4, h5⟩ := hc
    rw [hq] at h4
    cases h4
    rw [if_pos rfl]
    simp only [List.nil_append] at hn hp ⊢
    cases b with
    | nil => exact h5
    | cons d b =>
      obtain ⟨h6, h7, h8⟩ := h5
      have hcd : d ≠ c := by rintro rfl; simp at hn
      refine ⟨h6, by rw [h2 d hcd, if_pos h6], ?_⟩
      rw [h1 d hcd, if_neg (hp d (by simp))]
      refine chain_frame ?_ h8
      intro e he
      have hec : e ≠ c := by rintro rfl; simp [he] at hn
      have hed : d ≠ e := by rintro rfl; simp [he] at hn
      refine ⟨by rw [h1 e hec, if_neg (hp e (by simp [he]))], ?_⟩
      rw [h2 e hec, if_neg]
      rw [h6]
      intro h
      cases h
      exact hed rfl
  | cons x a ih =>
    obtain ⟨h3, h4, h5⟩ := hc
    have hxc : x ≠ c := by rintro rfl; simp at hn
    have hxa : x ∉ a ++ c :: b := (List.nodup_cons.mp hn).1
    have hqp : q ≠ p := by
      rcases chain_prev_split h5 with h | ⟨e, he, h⟩
      · rw [hq] at h
        cases h
        exact (hp x (by simp)).symm
      · rw [hq] at h
        cases h
        exact (hp e (by simp [he])).symm
    rw [if_neg hqp]
    refine ⟨h3, ?_, ?_⟩
    · rw [h2 x hxc, if_neg]
      · exact h4
      · intro h
        have := chain_next_split h5
        rw [h] at this
        cases b with
        | nil => cases this
        | cons y b => cases this.1; simp at hxa
    · rw [h1 x hxc]
      exact ih h5 (List.nodup_cons.mp hn).2 (fun e he h => by cases h; exact hxa he)

/-! ### the invariant -/

/-- what holds of a loop whose list is `l` and in which waiting sends were completed on the connections `dn` -/
structure Inv (L : Loop T) (l dn : List Nat) : Prop where
  chain : Chain L .head L.head l
  nodup : l.Nodup
  out : ∀ c, c ∉ l → (L.conn c).next = none ∧ (L.conn c).prev = none
  pollIn : ∀ c ms, L.poll c = some ms → c ∈ l ∧ L.closed c = false ∧ (Mode.read ∈ ms ↔ Mode.read ∈ (L.conn c).mode)
  inPoll : ∀ c, c ∈ l → L.closed c = false → ∃ ms, L.poll c = some ms
  readCb : ∀ c, L.closed c = false → (L.conn c).rcb ≠ none → c ∈ l ∧ Mode.read ∈ (L.conn c).mode
  writeCb : ∀ c, L.closed c = false → (L.conn c).wcb ≠ none → c ∈ l ∧ Mode.write ∈ (L.conn c).mode
  write : ∀ c ms, c ∉ dn → L.poll c = some ms → Mode.write ∈ (L.conn c).mode → Mode.write ∈ ms

theorem inv_init : Inv (Loop.init : Loop T) [] [] where
  chain := rfl
  nodup := .nil
  out := fun _ _ => ⟨rfl, rfl⟩
  pollIn := fun _ _ h => by cases h
  inPoll := fun _ h => by cases h
  readCb := fun _ _ h => absurd rfl h
  writeCb := fun _ _ h => absurd rfl h
  write := fun _ _ _ h => by cases h

theorem notIn_iff {L : Loop T} {l dn : List Nat} (h : Inv L l dn) (c : Nat) : L.notIn c = true ↔ c ∉ l := by
  constructor
  · intro hn hc
    obtain ⟨q, hq⟩ := chain_prev h.chain hc
    simp [Loop.notIn, hq] at hn
  · intro hc
    obtain ⟨h1, h2⟩ := h.out c hc
    simp [Loop.notIn, h1, h2]

@[simp] theorem upd_conn (L : Loop T) (c : Nat) (f : Conn T → Conn T) (d : Nat) :
    (L.upd c f).conn d = if d = c then f (L.conn d) else L.conn d := rfl
@[simp] theorem upd_head (L : Loop T) (c : Nat) (f : Conn T → Conn T) : (L.upd c f).head = L.head := rfl
@[simp] theorem upd_poll (L : Loop T) (c : Nat) (f : Conn T → Conn T) : (L.upd c f).poll = L.poll := rfl
@[simp] theorem upd_closed (L : Loop T) (c : Nat) (f : Conn T → Conn T) : (L.upd c f).closed = L.closed := rfl
@[simp] theorem upd_ready (L : Loop T) (c : Nat) (f : Conn T → Conn T) : (L.upd c f).ready = L.ready := rfl

/-- the callback of a connection for a mode -/
def Loop.cb (L : Loop T) (c : Nat) : Mode → Option (Cb T)
  | .read => (L.conn c).rcb
  | .write => (L.conn c).wcb

/-- what `event-loop-add` does to a registered connection -/
structure AddIn (L L' : Loop T) (c : Nat) (m : Mode) (cb : Cb T) : Prop where
  links : ∀ d, (L'.conn d).next = (L.conn d).next ∧ (L'.conn d).prev = (L.conn d).prev
  head : L'.head = L.head
  closed : L'.closed = L.closed
  ready : L'.ready = L.ready
  rcb : ∀ d, (L'.conn d).rcb = if d = c ∧ m = .read then some cb else (L.conn d).rcb
  wcb : ∀ d, (L'.conn d).wcb = if d = c ∧ m = .write then some cb else (L.conn d).wcb
  mode : ∀ d, (L'.conn d).mode = if d = c ∧ m ∉ (L.conn c).mode then m :: (L.conn c).mode else (L.conn d).mode
  poll : ∀ d, L'.poll d = if d = c ∧ m ∉ (L.conn c).mode then (L.poll c).map fun _ => m :: (L.conn c).mode
    else L.poll d

theorem add_in {L : Loop T} {c : Nat} (m : Mode) (cb : Cb T) (h : L.notIn c = false) : AddIn L (L.add c m cb) c m cb := by
  have hn : (L.setCb c m (some cb)).notIn c = false := by
    cases m <;> simpa [Loop.setCb, Loop.notIn] using h
  have hmode : ∀ d, ((L.setCb c m (some cb)).conn d).mode = (L.conn d).mode := by
    intro d; cases m <;> (simp only [Loop.setCb, upd_conn]; split <;> rfl)
  have hadd : L.add c m cb = if m ∈ (L.conn c).mode then L.setCb c m (some cb) else
      ((L.setCb c m (some cb)).pollMod c (m :: (L.conn c).mode)).upd c fun x => { x with mode := m :: (L.conn c).mode } := by
    simp only [Loop.add, hn, hmode]
    simp
  rw [hadd]
  by_cases hm : m ∈ (L.conn c).mode
  · rw [if_pos hm]
    cases m <;> constructor <;> first
      | rfl
      | (intro d; by_cases hd : d = c <;> simp [Loop.setCb, hd, hm])
  · rw [if_neg hm]
    cases hp : L.poll c with
    | none =>
      cases m <;> constructor <;> first
        | (intro d; by_cases hd : d = c <;> simp [Loop.setCb, Loop.pollMod, hp, hd, hm])
        | simp [Loop.setCb, Loop.pollMod, hp]
    | some ms =>
      cases m <;> constructor <;> first
        | (intro d; by_cases hd : d = c <;> simp [Loop.setCb, Loop.pollMod, hp, hd, hm])
        | simp [Loop.setCb, Loop.pollMod, hp]

/-- what `event-loop-add` does to a connection that is not registered -/
structure AddOut (L L' : Loop T) (c : Nat) (m : Mode) (cb : Cb T) : Prop where
  next : ∀ d, (L'.conn d).next = if d = c then L.head else (L.conn d).next
  prev : ∀ d, (L'.conn d).prev = if d = c then some .head else if L.head = some d then some (.conn c)
    else (L.conn d).prev
  head : L'.head = some c
  closed : L'.closed = L.closed
  ready : L'.ready = L.ready
  rcb : ∀ d, (L'.conn d).rcb = if d = c ∧ m = .read then some cb else (L.conn d).rcb
  wcb : ∀ d, (L'.conn d).wcb = if d = c ∧ m = .write then some cb else (L.conn d).wcb
  mode : ∀ d, (L'.conn d).mode = if d = c then [m] else (L.conn d).mode
  poll : ∀ d, L'.poll d = if d = c ∧ L.poll c = none ∧ L.closed c = false then some [m] else L.poll d

theorem add_out {L : Loop T} {c : Nat} (m : Mode) (cb : Cb T) (h : L.notIn c = true) : AddOut L (L.add c m cb) c m cb := by
  have hn : (L.setCb c m (some cb)).notIn c = true := by
    cases m <;> simpa [Loop.setCb, Loop.notIn] using h
  have hadd : L.add c m cb = (((L.setCb c m (some cb)).addConn c).pollAdd c m).upd c fun x => { x with mode := [m] } := by
    simp only [Loop.add, hn]
    simp
  rw [hadd]
  cases hh : L.head with
  | none =>
    cases hp : L.poll c <;> cases hc : L.closed c <;> cases m <;> constructor <;> first
      | (intro d; by_cases hd : d = c <;> simp [Loop.setCb, Loop.addConn, Loop.setNext, Loop.setPrev, Loop.pollAdd, hh, hp, hc, hd])
      | simp [Loop.setCb, Loop.addConn, Loop.setNext, Loop.setPrev, Loop.pollAdd, hh, hp, hc]
  | some e =>
    have he : ∀ d : Nat, (e = d) = (d = e) := fun d => propext ⟨Eq.symm, Eq.symm⟩
    by_cases hce : c = e
    · cases hce
      cases hp : L.poll c <;> cases hc : L.closed c <;> cases m <;> constructor <;> first
        | (intro d; by_cases hd : d = c <;>
            simp [Loop.setCb, Loop.addConn, Loop.setNext, Loop.setPrev, Loop.pollAdd, hh, hp, hc, hd, he])
        | simp [Loop.setCb, Loop.addConn, Loop.setNext, Loop.setPrev, Loop.pollAdd, hh, hp, hc]
    · have hec : e ≠ c := fun h => hce h.symm
      cases hp : L.poll c <;> cases hc : L.closed c <;> cases m <;> constructor <;> first
        | (intro d; by_cases hd : d = c
           · cases hd
             simp [Loop.setCb, Loop.addConn, Loop.setNext, Loop.setPrev, Loop.pollAdd, hh, hp, hc, hce, hec]
           · by_cases hde : d = e
             · cases hde
               simp [Loop.setCb, Loop.addConn, Loop.setNext, Loop.setPrev, Loop.pollAdd, hh, hp, hc, hce, hec]
             · simp [Loop.setCb, Loop.addConn, Loop.setNext, Loop.setPrev, Loop.pollAdd, hh, hp, hc, hd, he, hde])
        | simp [Loop.setCb, Loop.addConn, Loop.setNext, Loop.setPrev, Loop.pollAdd, hh, hp, hc]

/-- `event-loop-add` keeps the invariant -/
theorem inv_add {L : Loop T} {l dn : List Nat} (h : Inv L l dn) (c : Nat) (m : Mode) (cb : Cb T) :
    Inv (L.add c m cb) (if c ∈ l then l else c :: l) dn := by
  by_cases hc : c ∈ l
  · rw [if_pos hc]
    have hn : L.notIn c = false := by
      cases hn : L.notIn c with
      | false => rfl
      | true => exact absurd hc ((notIn_iff h c).mp hn)
    have A := add_in m cb hn
    refine ⟨?_, h.nodup, ?_, ?_, ?_, ?_, ?_, ?_⟩
    · rw [A.head]
      exact chain_frame (fun d _ => A.links d) h.chain
    · intro d hd
      rw [(A.links d).1, (A.links d).2]
      exact h.out d hd
    · intro d ms hms
      rw [A.poll] at hms
      rw [A.closed, A.mode]
      split at hms
      · rename_i hdc
        obtain ⟨rfl, hm⟩ := hdc
        cases hp : L.poll d with
        | none => rw [hp] at hms; cases hms
        | some ms' =>
          rw [hp] at hms
          cases hms
          rw [if_pos ⟨rfl, hm⟩]
          exact ⟨hc, (h.pollIn d _ hp).2.1, Iff.rfl⟩
      · rename_i hdc
        rw [if_neg hdc]
        exact h.pollIn d ms hms
    · intro d hd hcl
      rw [A.closed] at hcl
      obtain ⟨ms, hms⟩ := h.inPoll d hd hcl
      rw [A.poll]
      split
      · rename_i hdc
        obtain ⟨rfl, hm⟩ := hdc
        exact ⟨_, by rw [hms]; rfl⟩
      · exact ⟨ms, hms⟩
    · intro d hcl hr
      rw [A.closed] at hcl
      rw [A.rcb] at hr
      rw [A.mode]
      by_cases hd : d = c ∧ m = .read
      · obtain ⟨rfl, rfl⟩ := hd
        refine ⟨hc, ?_⟩
        split
        · simp
        · rename_i hh
          exact Classical.not_not.mp fun hn => hh ⟨rfl, hn⟩
      · rw [if_neg hd] at hr
        obtain ⟨h1, h2⟩ := h.readCb d hcl hr
        refine ⟨h1, ?_⟩
        split
        · rename_i hh
          obtain ⟨rfl, _⟩ := hh
          exact List.mem_cons_of_mem _ h2
        · exact h2
    · intro d hcl hr
      rw [A.closed] at hcl
      rw [A.wcb] at hr
      rw [A.mode]
      by_cases hd : d = c ∧ m = .write
      · obtain ⟨rfl, rfl⟩ := hd
        refine ⟨hc, ?_⟩
        split
        · simp
        · rename_i hh
          exact Classical.not_not.mp fun hn => hh ⟨rfl, hn⟩
      · rw [if_neg hd] at hr
        obtain ⟨h1, h2⟩ := h.writeCb d hcl hr
        refine ⟨h1, ?_⟩
        split
        · rename_i hh
          obtain ⟨rfl, _⟩ := hh
          exact List.mem_cons_of_mem _ h2
        · exact h2
    · intro d ms hdn hms hw
      rw [A.poll] at hms
      rw [A.mode] at hw
      split at hms
      · rename_i hdc
        rw [if_pos hdc] at hw
        obtain ⟨rfl, hm⟩ := hdc
        cases hp : L.poll d with
        | none => rw [hp] at hms; cases hms
        | some ms' => rw [hp] at hms; cases hms; exact hw
      · rename_i hdc
        rw [if_neg hdc] at hw
        exact h.write d ms hdn hms hw
  · rw [if_neg hc]
    have A := add_out m cb ((notIn_iff h c).mpr hc)
    have hnp : L.poll c = none := by
      cases hp : L.poll c with
      | none => rfl
      | some ms => exact absurd (h.pollIn c ms hp).1 hc
    refine ⟨?_, List.nodup_cons.mpr ⟨hc, h.nodup⟩, ?_, ?_, ?_, ?_, ?_, ?_⟩
    · rw [A.head]
      refine ⟨rfl, by rw [A.prev, if_pos rfl], ?_⟩
      rw [A.next, if_pos rfl]
      have hch := h.chain
      cases l with
      | nil => exact hch
      | cons d l =>
        obtain ⟨h1, h2, h3⟩ := hch
        have hd : d ≠ c := fun e => hc (by simp [e])
        refine ⟨h1, by rw [A.prev, if_neg hd, if_pos h1], ?_⟩
        rw [A.next, if_neg hd]
        refine chain_frame ?_ h3
        intro e he
        have hec : e ≠ c := by rintro rfl; exact hc (List.mem_cons_of_mem _ he)
        have hed : L.head ≠ some e := by
          rw [h1]
          intro hh
          cases hh
          have := h.nodup
          simp [he] at this
        rw [A.next, A.prev, if_neg hec, if_neg hec, if_neg hed]
        exact ⟨rfl, rfl⟩
    · intro d hd
      have hdc : d ≠ c := fun e => hd (by simp [e])
      have hdl : d ∉ l := fun e => hd (by simp [e])
      rw [A.next, A.prev, if_neg hdc, if_neg hdc, if_neg]
      · exact h.out d hdl
      · intro hh
        have hch := h.chain
        cases l with
        | nil => rw [hch] at hh; cases hh
        | cons e l => rw [hch.1] at hh; cases hh; simp at hdl
    · intro d ms hms
      rw [A.poll] at hms
      rw [A.closed, A.mode]
      split at hms
      · rename_i hdc
        obtain ⟨rfl, _, hcl⟩ := hdc
        cases hms
        rw [if_pos rfl]
        exact ⟨by simp, hcl, Iff.rfl⟩
      · have hdc : d ≠ c := by rintro rfl; rw [hnp] at hms; cases hms
        rw [if_neg hdc]
        have := h.pollIn d ms hms
        exact ⟨List.mem_cons_of_mem _ this.1, this.2⟩
    · intro d hd hcl
      rw [A.closed] at hcl
      rw [A.poll]
      by_cases hdc : d = c
      · subst hdc
        rw [if_pos ⟨rfl, hnp, hcl⟩]
        exact ⟨_, rfl⟩
      · rw [if_neg fun e => hdc e.1]
        refine h.inPoll d ?_ hcl
        rcases List.mem_cons.mp hd with e | hd
        · exact absurd e hdc
        · exact hd
    · intro d hcl hr
      rw [A.closed] at hcl
      rw [A.rcb] at hr
      rw [A.mode]
      by_cases hdc : d = c
      · subst hdc
        rw [if_pos rfl]
        refine ⟨by simp, ?_⟩
        split at hr
        · rename_i hm; rw [hm.2]; simp
        · exact absurd (h.readCb d hcl hr).1 hc
      · rw [if_neg fun e => hdc e.1] at hr
        rw [if_neg hdc]
        have := h.readCb d hcl hr
        exact ⟨List.mem_cons_of_mem _ this.1, this.2⟩
    · intro d hcl hr
      rw [A.closed] at hcl
      rw [A.wcb] at hr
      rw [A.mode]
      by_cases hdc : d = c
      · subst hdc
        rw [if_pos rfl]
        refine ⟨by simp, ?_⟩
        split at hr
        · rename_i hm; rw [hm.2]; simp
        · exact absurd (h.writeCb d hcl hr).1 hc
      · rw [if_neg fun e => hdc e.1] at hr
        rw [if_neg hdc]
        have := h.writeCb d hcl hr
        exact ⟨List.mem_cons_of_mem _ this.1, this.2⟩
    · intro d ms hdn hms hw
      rw [A.poll] at hms
      rw [A.mode] at hw
      split at hms
      · rename_i hdc
        obtain ⟨rfl, _⟩ := hdc
        cases hms
        rwa [if_pos rfl] at hw
      · have hdc : d ≠ c := by rintro rfl; rw [hnp] at hms; cases hms
        rw [if_neg hdc] at hw
        exact h.write d ms hdn hms hw

/-- closing a connection keeps the invariant -/
theorem inv_close {L : Loop T} {l dn : List Nat} (h : Inv L l dn) (c : Nat) :
    ∃ L', L.close c = some L' ∧ Inv L' (l.erase c) dn ∧
      (∀ d, (L'.conn d).rcb = (L.conn d).rcb ∧ (L'.conn d).wcb = (L.conn d).wcb) ∧ L'.ready = L.ready := by
  by_cases hc : c ∈ l
  · have hn : L.notIn c = false := by
      cases hn : L.notIn c with
      | false => rfl
      | true => exact absurd hc ((notIn_iff h c).mp hn)
    obtain ⟨q, hq⟩ := chain_prev h.chain hc
    obtain ⟨a, b, hab⟩ := List.append_of_mem hc
    have hnd := h.nodup
    rw [hab] at hnd
    have hca : c ∉ a := by
      intro hca
      have := (List.nodup_append.mp hnd).2.2 c hca c (by simp)
      exact this rfl
    have hera : l.erase c = a ++ b := by
      rw [hab, List.erase_append_right _ hca]; simp
    have hqc : q ≠ .conn c := by
      have hch := h.chain
      rw [hab] at hch
      rcases chain_prev_split hch with e | ⟨e, he, he'⟩
      · rw [hq] at e; cases e; simp
      · rw [hq] at he'; cases he'; intro hh; cases hh; exact hca he
    have hnc : (L.conn c).next ≠ some c := by
      intro hh
      have hch := h.chain
      rw [hab] at hch
      have h5 := chain_next_split hch
      rw [hh] at h5
      cases b with
      | nil => cases h5
      | cons y b => cases h5.1; simp [List.nodup_append] at hnd
    have hcl : ∃ L', L.close c = some L' ∧
        (∀ e, (L'.conn e).next = if e = c then none else if q = .conn e then (L.conn c).next else (L.conn e).next) ∧
        (∀ e, (L'.conn e).prev = if e = c then none else if (L.conn c).next = some e then some q
          else (L.conn e).prev) ∧
        L'.head = (if q = .head then (L.conn c).next else L.head) ∧
        L'.ready = L.ready ∧
        (∀ e, L'.poll e = if e = c then none else L.poll e) ∧
        (∀ e, L'.closed e = if e = c then true else L.closed e) ∧
        (∀ e, (L'.conn e).rcb = (L.conn e).rcb ∧ (L'.conn e).wcb = (L.conn e).wcb ∧
          (L'.conn e).mode = (L.conn e).mode) := by
      have hd : (L.pollDel c).conn = L.conn := rfl
      unfold Loop.close
      rw [hn]
      simp only [Bool.false_eq_true, if_false]
      unfold Loop.delConn
      rw [hd, hq]
      have hqs : ∀ e, (q = Ref.conn e) = (Ref.conn e = q) := fun e => propext ⟨Eq.symm, Eq.symm⟩
      cases hq' : q with
      | head =>
        cases hx : (L.conn c).next with
        | none =>
          refine ⟨_, rfl, ?_, ?_, ?_, ?_, ?_, ?_, ?_⟩ <;> first
            | (intro e; by_cases he : e = c <;> simp [Loop.setNext, Loop.setPrev, Loop.pollDel, he, hx])
            | simp [Loop.setNext, Loop.setPrev, Loop.pollDel, hx]
        | some d =>
          have hdc : d ≠ c := by rintro rfl; exact hnc hx
          have hcd : c ≠ d := hdc.symm
          have hds : ∀ e : Nat, (d = e) = (e = d) := fun e => propext ⟨Eq.symm, Eq.symm⟩
          refine ⟨_, rfl, ?_, ?_, ?_, ?_, ?_, ?_, ?_⟩ <;> first
            | (intro e; by_cases he : e = c <;> by_cases hed : e = d <;>
                simp [Loop.setNext, Loop.setPrev, Loop.pollDel, he, hx, hdc, hcd, hed, hds])
            | simp [Loop.setNext, Loop.setPrev, Loop.pollDel, hx, hdc, hcd]
      | conn f =>
        have hfc : f ≠ c := by rintro rfl; exact hqc hq'
        have hcf : c ≠ f := hfc.symm
        have hfs : ∀ e : Nat, (f = e) = (e = f) := fun e => propext ⟨Eq.symm, Eq.symm⟩
        cases hx : (L.conn c).next with
        | none =>
          refine ⟨_, rfl, ?_, ?_, ?_, ?_, ?_, ?_, ?_⟩ <;> first
            | (intro e; by_cases he : e = c <;> by_cases hef : e = f <;>
                simp [Loop.setNext, Loop.setPrev, Loop.pollDel, he, hx, hfc, hcf, hef, hfs])
            | simp [Loop.setNext, Loop.setPrev, Loop.pollDel, hx, hfc, hcf]
        | some d =>
          have hdc : d ≠ c := by rintro rfl; exact hnc hx
          have hcd : c ≠ d := hdc.symm
          have hds : ∀ e : Nat, (d = e) = (e = d) := fun e => propext ⟨Eq.symm, Eq.symm⟩
          by_cases hfd : f = d
          · cases hfd
            refine ⟨_, rfl, ?_, ?_, ?_, ?_, ?_, ?_, ?_⟩ <;> first
              | (intro e; by_cases he : e = c
                 · cases he; simp [Loop.setNext, Loop.setPrev, Loop.pollDel, hx, hdc, hcd, hfc, hcf]
                 · by_cases hef : e = f
                   · cases hef; simp [Loop.setNext, Loop.setPrev, Loop.pollDel, hx, hdc, hcd, hfc, hcf]
                   · simp [Loop.setNext, Loop.setPrev, Loop.pollDel, hx, hdc, hcd, hfc, hcf, he, hef, hfs])
              | simp [Loop.setNext, Loop.setPrev, Loop.pollDel, hx, hdc, hcd, hfc, hcf]
          · have hdf : d ≠ f := fun h => hfd h.symm
            refine ⟨_, rfl, ?_, ?_, ?_, ?_, ?_, ?_, ?_⟩ <;> first
              | (intro e; by_cases he : e = c
                 · cases he; simp [Loop.setNext, Loop.setPrev, Loop.pollDel, hx, hdc, hcd, hfc, hcf]
                 · by_cases hef : e = f
                   · cases hef; simp [Loop.setNext, Loop.setPrev, Loop.pollDel, hx, hdc, hcd, hfc, hcf, hfd, hdf]
                   · by_cases hed : e = d
                     · cases hed; simp [Loop.setNext, Loop.setPrev, Loop.pollDel, hx, hdc, hcd, hfc, hcf, hfd, hdf]
                     · simp [Loop.setNext, Loop.setPrev, Loop.pollDel, hx, hdc, hcd, hfc, hcf, he, hef, hfs, hed, hds])
              | simp [Loop.setNext, Loop.setPrev, Loop.pollDel, hx, hdc, hcd, hfc, hcf]
    obtain ⟨L', e0, e1, e2, e3, e4, e5, e6, e7⟩ := hcl
    refine ⟨L', e0, ?_, fun d => ⟨(e7 d).1, (e7 d).2.1⟩, e4⟩
    rw [hera]
    have hch := h.chain
    rw [hab] at hch
    have hmem : ∀ d, d ≠ c → (d ∈ a ++ b ↔ d ∈ l) := by
      intro d hd
      rw [hab]; simp [hd]
    have hcn : c ∉ a ++ b := by
      intro hh
      have := h.nodup
      rw [← hera] at hh
      exact (List.Nodup.mem_erase_iff this).mp hh |>.1 rfl
    refine ⟨?_, ?_, ?_, ?_, ?_, ?_, ?_, ?_⟩
    · rw [e3]
      refine chain_del hch hnd (fun e _ hh => by cases hh) hq ?_ ?_
      · intro e he; rw [e1, if_neg he]
      · intro e he; rw [e2, if_neg he]
    · rw [← hera]; exact h.nodup.erase c
    · intro d hd
      by_cases hdc : d = c
      · rw [e1, e2, if_pos hdc, if_pos hdc]; exact ⟨rfl, rfl⟩
      · have hdl : d ∉ l := fun hh => hd ((hmem d hdc).mpr hh)
        rw [e1, e2, if_neg hdc, if_neg hdc]
        have hq1 : q ≠ .conn d := by
          rcases chain_prev_split hch with e | ⟨e, he, he'⟩
          · rw [hq] at e; cases e; simp
          · rw [hq] at he'; cases he'; intro hh; cases hh; exact hd (by simp [he])
        have hx1 : (L.conn c).next ≠ some d := fun hh => hdl (chain_next h.chain hc hh)
        rw [if_neg hq1, if_neg hx1]
        exact h.out d hdl
    · intro d ms hms
      rw [e5] at hms
      by_cases hdc : d = c
      · rw [if_pos hdc] at hms; cases hms
      · rw [if_neg hdc] at hms
        rw [e6, if_neg hdc, (e7 d).2.2, hmem d hdc]
        exact h.pollIn d ms hms
    · intro d hd hcl
      by_cases hdc : d = c
      · subst hdc; exact absurd hd hcn
      · rw [e6, if_neg hdc] at hcl
        rw [e5, if_neg hdc]
        exact h.inPoll d ((hmem d hdc).mp hd) hcl
    · intro d hcl hr
      by_cases hdc : d = c
      · rw [e6, if_pos hdc] at hcl; cases hcl
      · rw [e6, if_neg hdc] at hcl
        rw [(e7 d).1] at hr
        rw [(e7 d).2.2, hmem d hdc]
        exact h.readCb d hcl hr
    · intro d hcl hr
      by_cases hdc : d = c
      · rw [e6, if_pos hdc] at hcl; cases hcl
      · rw [e6, if_neg hdc] at hcl
        rw [(e7 d).2.1] at hr
        rw [(e7 d).2.2, hmem d hdc]
        exact h.writeCb d hcl hr
    · intro d ms hdn hms hw
      rw [e5] at hms
      by_cases hdc : d = c
      · rw [if_pos hdc] at hms; cases hms
      · rw [if_neg hdc] at hms
        rw [(e7 d).2.2] at hw
        exact h.write d ms hdn hms hw
  · refine ⟨L.pollDel c, by simp only [Loop.close, (notIn_iff h c).mpr hc, if_true], ?_, fun d => ⟨rfl, rfl⟩, rfl⟩
    rw [List.erase_of_not_mem hc]
    refine ⟨chain_frame (L := L) (fun d _ => ⟨rfl, rfl⟩) h.chain, h.nodup, h.out, ?_, ?_, ?_, ?_, ?_⟩
    · intro d ms hms
      simp only [Loop.pollDel] at hms ⊢
      by_cases hdc : d = c
      · rw [if_pos hdc] at hms; cases hms
      · rw [if_neg hdc] at hms ⊢; exact h.pollIn d ms hms
    · intro d hd hcl
      simp only [Loop.pollDel] at hcl ⊢
      by_cases hdc : d = c
      · rw [if_pos hdc] at hcl; cases hcl
      · rw [if_neg hdc] at hcl ⊢; exact h.inPoll d hd hcl
    · intro d hcl hr
      simp only [Loop.pollDel] at hcl hr ⊢
      by_cases hdc : d = c
      · rw [if_pos hdc] at hcl; cases hcl
      · rw [if_neg hdc] at hcl; exact h.readCb d hcl hr
    · intro d hcl hr
      simp only [Loop.pollDel] at hcl hr ⊢
      by_cases hdc : d = c
      · rw [if_pos hdc] at hcl; cases hcl
      · rw [if_neg hdc] at hcl; exact h.writeCb d hcl hr
    · intro d ms hdn hms hw
      simp only [Loop.pollDel] at hms hw
      by_cases hdc : d = c
      · rw [if_pos hdc] at hms; cases hms
      · rw [if_neg hdc] at hms; exact h.write d ms hdn hms hw

/-- a callback that is done -/
theorem inv_clear {L : Loop T} {l dn : List Nat} (h : Inv L l dn) (c : Nat) (t : T) (m : Mode) :
    Inv ((L.setCb c m none).spawn t) l dn := by
  have hn : ∀ d, (((L.setCb c m none).spawn t).conn d).next = (L.conn d).next ∧
      (((L.setCb c m none).spawn t).conn d).prev = (L.conn d).prev ∧
      (((L.setCb c m none).spawn t).conn d).mode = (L.conn d).mode := by
    intro d; cases m <;> (simp only [Loop.setCb, Loop.spawn, upd_conn]; split <;> exact ⟨rfl, rfl, rfl⟩)
  have hp : ((L.setCb c m none).spawn t).poll = L.poll := by cases m <;> rfl
  have hcl : ((L.setCb c m none).spawn t).closed = L.closed := by cases m <;> rfl
  have hh : ((L.setCb c m none).spawn t).head = L.head := by cases m <;> rfl
  refine ⟨?_, h.nodup, ?_, ?_, ?_, ?_, ?_, ?_⟩
  · rw [hh]; exact chain_frame (fun d _ => ⟨(hn d).1, (hn d).2.1⟩) h.chain
  · intro d hd; rw [(hn d).1, (hn d).2.1]; exact h.out d hd
  · intro d ms hms; rw [hp] at hms; rw [hcl, (hn d).2.2]; exact h.pollIn d ms hms
  · intro d hd hc; rw [hcl] at hc; rw [hp]; exact h.inPoll d hd hc
  · intro d hc hr
    rw [hcl] at hc
    rw [(hn d).2.2]
    refine h.readCb d hc fun e => hr ?_
    cases m <;> (simp only [Loop.setCb, Loop.spawn, upd_conn]; split <;> simp [e])
  · intro d hc hr
    rw [hcl] at hc
    rw [(hn d).2.2]
    refine h.writeCb d hc fun e => hr ?_
    cases m <;> (simp only [Loop.setCb, Loop.spawn, upd_conn]; split <;> simp [e])
  · intro d ms hdn hms hw
    rw [hp] at hms
    rw [(hn d).2.2] at hw
    exact h.write d ms hdn hms hw

/-- the watched modes after a send is done -/
theorem inv_mod {L : Loop T} {l dn : List Nat} (h : Inv L l dn) (c : Nat) :
    Inv (L.pollMod c ((L.conn c).mode.filter (· ≠ .write))) l (c :: dn) := by
  unfold Loop.pollMod
  cases hp : L.poll c with
  | none =>
    exact ⟨h.chain, h.nodup, h.out, h.pollIn, h.inPoll, h.readCb, h.writeCb,
      fun d ms hd => h.write d ms fun e => hd (List.mem_cons_of_mem _ e)⟩
  | some ms0 =>
    simp only [Option.isSome_some, if_true]
    refine ⟨chain_frame (L := L) (fun d _ => ⟨rfl, rfl⟩) h.chain, h.nodup, h.out, ?_, ?_, h.readCb, h.writeCb, ?_⟩
    · intro d ms hms
      simp only at hms ⊢
      by_cases hdc : d = c
      · subst hdc
        rw [if_pos rfl] at hms
        cases hms
        have := h.pollIn d _ hp
        refine ⟨this.1, this.2.1, ?_⟩
        simp
      · rw [if_neg hdc] at hms; exact h.pollIn d ms hms
    · intro d hd hcl
      simp only at hcl ⊢
      by_cases hdc : d = c
      · rw [if_pos hdc]; exact ⟨_, rfl⟩
      · rw [if_neg hdc]; exact h.inPoll d hd hcl
    · intro d ms hd hms hw
      simp only at hms hw
      have hdc : d ≠ c := fun e => hd (by simp [e])
      rw [if_neg hdc] at hms
      exact h.write d ms (fun e => hd (List.mem_cons_of_mem _ e)) hms hw

theorem inv_more {L : Loop T} {l dn dn' : List Nat} (h : Inv L l dn) (hd : ∀ c ∈ dn, c ∈ dn') : Inv L l dn' :=
  { h with write := fun c ms hc => h.write c ms fun e => hc (hd c e) }

/-- the connection whose waiting send an operation may complete -/
def LoopOp.sent : LoopOp T → List Nat
  | .ready c .write false => [c]
  | _ => []

/-- one step of `registered` -/
def regStep (l : List Nat) : LoopOp T → List Nat
  | .close c => l.erase c
  | .ready _ _ _ => l
  | .recv c _ => if c ∈ l then l else c :: l
  | .accept c _ => if c ∈ l then l else c :: l
  | .send c _ => if c ∈ l then l else c :: l

/-- write callbacks are send handlers and read callbacks are not -/
structure Kinds (L : Loop T) : Prop where
  read : ∀ c t, (L.conn c).rcb ≠ some (.send t)
  write : ∀ c cb, (L.conn c).wcb = some cb → ∃ t, cb = .send t

theorem add_cb (L : Loop T) (c : Nat) (m : Mode) (cb : Cb T) :
    (∀ d, ((L.add c m cb).conn d).rcb = if d = c ∧ m = .read then some cb else (L.conn d).rcb) ∧
    (∀ d, ((L.add c m cb).conn d).wcb = if d = c ∧ m = .write then some cb else (L.conn d).wcb) ∧
    (L.add c m cb).ready = L.ready := by
  cases hn : L.notIn c with
  | false => have A := add_in m cb hn; exact ⟨A.rcb, A.wcb, A.ready⟩
  | true => have A := add_out m cb hn; exact ⟨A.rcb, A.wcb, A.ready⟩

theorem kinds_add {L : Loop T} (h : Kinds L) (c : Nat) (m : Mode) (cb : Cb T)
    (hr : m = .read → ∀ t, cb ≠ .send t) (hw : m = .write → ∃ t, cb = .send t) : Kinds (L.add c m cb) := by
  obtain ⟨h1, h2, _⟩ := add_cb L c m cb
  constructor
  · intro d t
    rw [h1]
    split
    · rename_i hh; intro e; cases e; exact hr hh.2 t rfl
    · exact h.read d t
  · intro d cb' hcb
    rw [h2] at hcb
    split at hcb
    · rename_i hh; cases hcb; exact hw hh.2
    · exact h.write d cb' hcb

theorem setCb_cb (L : Loop T) (c : Nat) (m : Mode) (cb : Option (Cb T)) :
    (∀ d, ((L.setCb c m cb).conn d).rcb = if d = c ∧ m = .read then cb else (L.conn d).rcb) ∧
    (∀ d, ((L.setCb c m cb).conn d).wcb = if d = c ∧ m = .write then cb else (L.conn d).wcb) := by
  cases m <;> constructor <;> intro d <;> by_cases hd : d = c <;> simp [Loop.setCb, hd]

theorem kinds_clear {L : Loop T} (h : Kinds L) (c : Nat) (m : Mode) (t : T) : Kinds ((L.setCb c m none).spawn t) := by
  obtain ⟨h1, h2⟩ := setCb_cb L c m none
  constructor
  · intro d t'
    show ((L.setCb c m none).conn d).rcb ≠ _
    rw [h1]
    split
    · simp
    · exact h.read d t'
  · intro d cb' hcb
    change ((L.setCb c m none).conn d).wcb = _ at hcb
    rw [h2] at hcb
    split at hcb
    · cases hcb
    · exact h.write d cb' hcb

theorem pollMod_conn (L : Loop T) (c : Nat) (ms : List Mode) : (L.pollMod c ms).conn = L.conn := by
  unfold Loop.pollMod; split <;> rfl

theorem pollMod_ready (L : Loop T) (c : Nat) (ms : List Mode) : (L.pollMod c ms).ready = L.ready := by
  unfold Loop.pollMod; split <;> rfl

/-- an event runs the callback for its mode -/
theorem event_eq (L : Loop T) (c : Nat) (m : Mode) (b : Bool) :
    L.event c m b = if m ∈ (L.poll c).getD [] then (match L.cb c m with | none => L | some cb => L.call c b cb)
      else L := by
  cases m <;> rfl

theorem inv_event {L : Loop T} {l dn : List Nat} (h : Inv L l dn) (hk : Kinds L) (c : Nat) (m : Mode) (b : Bool) :
    Inv (L.event c m b) l (LoopOp.sent (.ready c m b : LoopOp T) ++ dn) ∧ Kinds (L.event c m b) := by
  have h' : Inv L l (LoopOp.sent (.ready c m b : LoopOp T) ++ dn) := inv_more h fun d hd => by simp [hd]
  rw [event_eq]
  split
  · rename_i hm
    cases hp : L.poll c with
    | none => rw [hp] at hm; cases hm
    | some ms =>
      have hc := (h.pollIn c ms hp).1
      cases hcb : L.cb c m with
      | none => exact ⟨h', hk⟩
      | some cb =>
        simp only
        cases cb with
        | recv t =>
          cases m with
          | write => obtain ⟨t', ht'⟩ := hk.write c _ hcb; cases ht'
          | read =>
            simp only [Loop.call, Loop.recvHandler]
            split
            · have := inv_add h' c .read (.recv t)
              rw [if_pos hc] at this
              exact ⟨this, kinds_add hk c .read _ (fun _ _ e => by cases e) (fun e => by cases e)⟩
            · exact ⟨inv_clear h' c t .read, kinds_clear hk c .read t⟩
        | accept t =>
          cases m with
          | write => obtain ⟨t', ht'⟩ := hk.write c _ hcb; cases ht'
          | read =>
            simp only [Loop.call, Loop.acceptHandler]
            exact ⟨inv_clear h' c t .read, kinds_clear hk c .read t⟩
        | send t =>
          cases m with
          | read => exact absurd hcb (hk.read c t)
          | write =>
            simp only [Loop.call, Loop.sendHandler]
            cases b with
            | true =>
              simp only [if_true]
              have := inv_add h' c .write (.send t)
              rw [if_pos hc] at this
              exact ⟨this, kinds_add hk c .write _ (fun e => by cases e) (fun _ => ⟨t, rfl⟩)⟩
            | false =>
              simp only [Bool.false_eq_true, if_false]
              have h1 := inv_mod (inv_clear h c t .write) c
              have hk1 := kinds_clear hk c .write t
              have e : (((L.setCb c .write none).pollMod c
                  (((L.setCb c .write none).conn c).mode.filter (· ≠ .write))).spawn t) =
                  ((L.setCb c .write none).spawn t).pollMod c
                  ((((L.setCb c .write none).spawn t).conn c).mode.filter (· ≠ .write)) := by
                unfold Loop.pollMod Loop.spawn
                simp only
                split <;> rfl
              rw [e]
              refine ⟨h1, ?_, ?_⟩
              · intro d t'; rw [pollMod_conn]; exact hk1.read d t'
              · intro d cb' hcb'; rw [pollMod_conn] at hcb'; exact hk1.write d cb' hcb'
  · exact ⟨h', hk⟩

theorem inv_step {L : Loop T} {l dn : List Nat} (h : Inv L l dn) (hk : Kinds L) (op : LoopOp T) :
    ∃ L', step L op = some L' ∧ Inv L' (regStep l op) (LoopOp.sent op ++ dn) ∧ Kinds L' := by
  cases op with
  | recv c t =>
    exact ⟨_, rfl, inv_add h c .read _, kinds_add hk c .read _ (fun _ _ e => by cases e) (fun e => by cases e)⟩
  | accept c t =>
    exact ⟨_, rfl, inv_add h c .read _, kinds_add hk c .read _ (fun _ _ e => by cases e) (fun e => by cases e)⟩
  | send c t =>
    exact ⟨_, rfl, inv_add h c .write _, kinds_add hk c .write _ (fun e => by cases e) (fun _ => ⟨t, rfl⟩)⟩
  | ready c m b => exact ⟨_, rfl, inv_event h hk c m b⟩
  | close c =>
    obtain ⟨L', h1, h2, h3, h4⟩ := inv_close h c
    exact ⟨L', h1, h2, fun d t => by rw [(h3 d).1]; exact hk.read d t,
      fun d cb hcb => hk.write d cb (by rw [← (h3 d).2]; exact hcb)⟩

end Cora.Async
