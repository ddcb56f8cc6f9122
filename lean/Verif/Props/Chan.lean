import Verif.Model.Chan
import Verif.Spec.Chan
/-
C47 (channels) and C48 (choice).
-/
open Spec
namespace Cora.Chan

variable {K V : Type} [DecidableEq V]

/-- every queued entry is waiting, and no two entries share their state -/
structure OK (s : St K V) : Prop where
  ex : ∃ home : Nat → Nat × Bool,
    (∀ c, ∀ it ∈ s.sendq c, s.done it.state = false ∧ it.state < s.gen ∧ home it.state = (c, true)) ∧
    (∀ c, ∀ it ∈ s.recvq c, s.done it.state = false ∧ it.state < s.gen ∧ home it.state = (c, false))
  sn : ∀ c, ((s.sendq c).map (·.state)).Nodup
  rn : ∀ c, ((s.recvq c).map (·.state)).Nodup

theorem upd_same {β : Type} (f : Nat → β) (c : Nat) : upd f c (f c) = f := by
  funext j
  simp only [upd]
  split
  · rename_i h; rw [h]
  · rfl

@[simp] theorem upd_at {β : Type} (f : Nat → β) (c : Nat) (x : β) : upd f c x c = x := by simp [upd]

theorem upd_ne {β : Type} (f : Nat → β) {c j : Nat} (x : β) (h : j ≠ c) : upd f c x j = f j := by simp [upd, h]

theorem OK.init : OK (St.init : St K V) :=
  ⟨⟨fun _ => (0, true), by simp [St.init], by simp [St.init]⟩, by simp [St.init], by simp [St.init]⟩

/-- the first waiting sender is served -/
def popS (unit : V) (c : Nat) (it : SItem K V) (q : List (SItem K V)) (s : St K V) : St K V :=
  { s with sendq := upd s.sendq c q, tasks := s.tasks ++ [(it.resume, it.wrap unit)],
           done := upd s.done it.state true }

/-- the first waiting receiver is served -/
def popR (v : V) (c : Nat) (it : RItem K V) (q : List (RItem K V)) (s : St K V) : St K V :=
  { s with recvq := upd s.recvq c q, tasks := s.tasks ++ [(it.resume, it.wrap v)],
           done := upd s.done it.state true }

theorem recvTry_nil (ff unit : V) {c : Nat} {s : St K V} (h : s.sendq c = []) : recvTry ff unit c s = (ff, s) := by
  unfold recvTry
  rw [h]
  show (ff, { s with sendq := upd s.sendq c [] }) = _
  rw [← h, upd_same]

theorem recvTry_cons (ff unit : V) {c : Nat} {s : St K V} (ok : OK s) {it : SItem K V} {q : List (SItem K V)}
    (h : s.sendq c = it :: q) : recvTry ff unit c s = (it.val, popS unit c it q s) := by
  unfold recvTry
  rw [h]
  obtain ⟨home, h1, h2⟩ := ok.ex
  have := (h1 c it (by rw [h]; simp)).1
  simp [recvLoop, this, popS]

theorem sendTry_nil (ff unit v : V) {c : Nat} {s : St K V} (h : s.recvq c = []) : sendTry ff unit c v s = (ff, s) := by
  unfold sendTry
  rw [h]
  show (ff, { s with recvq := upd s.recvq c [] }) = _
  rw [← h, upd_same]

theorem sendTry_cons (ff unit v : V) {c : Nat} {s : St K V} (ok : OK s) {it : RItem K V} {q : List (RItem K V)}
    (h : s.recvq c = it :: q) : sendTry ff unit c v s = (unit, popR v c it q s) := by
  unfold sendTry
  rw [h]
  obtain ⟨home, h1, h2⟩ := ok.ex
  have := (h2 c it (by rw [h]; simp)).1
  simp [sendLoop, this, popR]

theorem OK.popS {unit : V} {c : Nat} {s : St K V} (ok : OK s) {it : SItem K V} {q : List (SItem K V)}
    (h : s.sendq c = it :: q) : OK (popS unit c it q s) := by
  obtain ⟨⟨home, h1, h2⟩, sn, rn⟩ := ok
  have hit := h1 c it (by rw [h]; simp)
  have hn := sn c
  rw [h, List.map_cons, List.nodup_cons] at hn
  refine ⟨⟨home, ?_, ?_⟩, ?_, rn⟩
  · intro c' it' hm
    have hmem : it' ∈ s.sendq c' := by
      by_cases hc : c' = c
      · subst hc; simp only [Chan.popS, upd_at] at hm; rw [h]; simp [hm]
      · simpa [Chan.popS, upd_ne _ _ hc] using hm
    have hh := h1 c' it' hmem
    refine ⟨?_, hh.2⟩
    have hne : it'.state ≠ it.state := by
      intro he
      by_cases hc : c' = c
      · subst hc; simp only [Chan.popS, upd_at] at hm
        exact hn.1 (he ▸ List.mem_map.mpr ⟨it', hm, rfl⟩)
      · have := hh.2.2
        rw [he, hit.2.2] at this
        exact hc (Prod.mk.inj this).1.symm
    simp [Chan.popS, upd_ne _ _ hne, hh.1]
  · intro c' it' hm
    have hh := h2 c' it' hm
    refine ⟨?_, hh.2⟩
    have hne : it'.state ≠ it.state := by
      intro he
      have := hh.2.2
      rw [he, hit.2.2] at this
      simp at this
    simp [Chan.popS, upd_ne _ _ hne, hh.1]
  · intro c'
    by_cases hc : c' = c
    · subst hc; simp only [Chan.popS, upd_at]; exact hn.2
    · simp only [Chan.popS, upd_ne _ _ hc]; exact sn c'

theorem OK.popR {v : V} {c : Nat} {s : St K V} (ok : OK s) {it : RItem K V} {q : List (RItem K V)}
    (h : s.recvq c = it :: q) : OK (popR v c it q s) := by
  obtain ⟨⟨home, h1, h2⟩, sn, rn⟩ := ok
  have hit := h2 c it (by rw [h]; simp)
  have hn := rn c
  rw [h, List.map_cons, List.nodup_cons] at hn
  refine ⟨⟨home, ?_, ?_⟩, sn, ?_⟩
  · intro c' it' hm
    have hh := h1 c' it' hm
    refine ⟨?_, hh.2⟩
    have hne : it'.state ≠ it.state := by
      intro he
      have := hh.2.2
      rw [he, hit.2.2] at this
      simp at this
    simp [Chan.popR, upd_ne _ _ hne, hh.1]
  · intro c' it' hm
    have hmem : it' ∈ s.recvq c' := by
      by_cases hc : c' = c
      · subst hc; simp only [Chan.popR, upd_at] at hm; rw [h]; simp [hm]
      · simpa [Chan.popR, upd_ne _ _ hc] using hm
    have hh := h2 c' it' hmem
    refine ⟨?_, hh.2⟩
    have hne : it'.state ≠ it.state := by
      intro he
      by_cases hc : c' = c
      · subst hc; simp only [Chan.popR, upd_at] at hm
        exact hn.1 (he ▸ List.mem_map.mpr ⟨it', hm, rfl⟩)
      · have := hh.2.2
        rw [he, hit.2.2] at this
        exact hc (Prod.mk.inj this).1.symm
    simp [Chan.popR, upd_ne _ _ hne, hh.1]
  · intro c'
    by_cases hc : c' = c
    · subst hc; simp only [Chan.popR, upd_at]; exact hn.2
    · simp only [Chan.popR, upd_ne _ _ hc]; exact rn c'

theorem OK.sendBlock {c : Nat} {k : K} {v : V} {w : V → V} {s : St K V} (ok : OK s) : OK (sendBlock c k v w s) := by
  obtain ⟨⟨home, h1, h2⟩, sn, rn⟩ := ok
  refine ⟨⟨fun n => if n = s.gen then (c, true) else home n, ?_, ?_⟩, ?_, rn⟩
  · intro c' it hm
    by_cases hn : it = ⟨s.gen, k, v, w⟩ ∧ c' = c
    · obtain ⟨rfl, rfl⟩ := hn
      simp [Chan.sendBlock]
    · have hmem : it ∈ s.sendq c' := by
        by_cases hc : c' = c
        · subst hc
          simp only [Chan.sendBlock, upd_at, List.mem_append, List.mem_singleton] at hm
          rcases hm with hm | hm
          · exact hm
          · exact absurd ⟨hm, rfl⟩ hn
        · simpa [Chan.sendBlock, upd_ne _ _ hc] using hm
      have hh := h1 c' it hmem
      have hne : it.state ≠ s.gen := by omega
      simp [Chan.sendBlock, upd_ne _ _ hne, hh, hne]
      omega
  · intro c' it hm
    have hh := h2 c' it hm
    have hne : it.state ≠ s.gen := by omega
    simp [Chan.sendBlock, upd_ne _ _ hne, hh, hne]
    omega
  · intro c'
    by_cases hc : c' = c
    · subst hc
      simp only [Chan.sendBlock, upd_at, List.map_append, List.map_cons, List.map_nil]
      rw [List.nodup_append]
      refine ⟨sn c', by simp, ?_⟩
      intro a ha b hb
      obtain ⟨it, hit, rfl⟩ := List.mem_map.mp ha
      simp at hb
      have := (h1 c' it hit).2.1
      omega
    · simp only [Chan.sendBlock, upd_ne _ _ hc]; exact sn c'

theorem OK.recvBlock {c : Nat} {k : K} {w : V → V} {s : St K V} (ok : OK s) : OK (recvBlock c k w s) := by
  obtain ⟨⟨home, h1, h2⟩, sn, rn⟩ := ok
  refine ⟨⟨fun n => if n = s.gen then (c, false) else home n, ?_, ?_⟩, sn, ?_⟩
  · intro c' it hm
    have hh := h1 c' it hm
    have hne : it.state ≠ s.gen := by omega
    simp [Chan.recvBlock, upd_ne _ _ hne, hh, hne]
    omega
  · intro c' it hm
    by_cases hn : it = ⟨s.gen, k, w⟩ ∧ c' = c
    · obtain ⟨rfl, rfl⟩ := hn
      simp [Chan.recvBlock]
    · have hmem : it ∈ s.recvq c' := by
        by_cases hc : c' = c
        · subst hc
          simp only [Chan.recvBlock, upd_at, List.mem_append, List.mem_singleton] at hm
          rcases hm with hm | hm
          · exact hm
          · exact absurd ⟨hm, rfl⟩ hn
        · simpa [Chan.recvBlock, upd_ne _ _ hc] using hm
      have hh := h2 c' it hmem
      have hne : it.state ≠ s.gen := by omega
      simp [Chan.recvBlock, upd_ne _ _ hne, hh, hne]
      omega
  · intro c'
    by_cases hc : c' = c
    · subst hc
      simp only [Chan.recvBlock, upd_at, List.map_append, List.map_cons, List.map_nil]
      rw [List.nodup_append]
      refine ⟨rn c', by simp, ?_⟩
      intro a ha b hb
      obtain ⟨it, hit, rfl⟩ := List.mem_map.mp ha
      simp at hb
      have := (h2 c' it hit).2.1
      omega
    · simp only [Chan.recvBlock, upd_ne _ _ hc]; exact rn c'

/-! ### C47 -/

/-- the operation an event performs -/
def evOp (ff unit : V) : ChanEv K V → Op K V
  | .send _ c v w => wrapOp (chanSend ff unit c v) w
  | .recv _ c w => wrapOp (chanRecv ff unit c) w

/-- the operations of a history -/
def ops (ff unit : V) (es : List (ChanEv K V)) : List (K × Op K V) := es.map fun e => (e.who, evOp ff unit e)

/-- the pairs of one sender and one receiver -/
def deliver (unit : V) (p : (K × V × (V → V)) × (K × (V → V))) : List (K × V) :=
  [(p.1.1, p.1.2.2 unit), (p.2.1, p.2.2 p.1.2.1)]

/-- what holds after the history `es`, `log` being everything delivered so far -/
structure Inv (ff unit : V) (chanOf : K → Nat) (es : List (ChanEv K V)) (log : List (K × V)) (s : St K V) : Prop where
  ok : OK s
  nf : ∀ c, ∀ it ∈ s.sendq c, it.val ≠ ff
  q : ∀ c, ∃ S R, sendsOn c es = S ++ (s.sendq c).map (fun it => (it.resume, it.val, it.wrap)) ∧
    recvsOn c es = R ++ (s.recvq c).map (fun it => (it.resume, it.wrap)) ∧ S.length = R.length ∧
    (s.sendq c = [] ∨ s.recvq c = []) ∧
    (log.filter (fun e => chanOf e.1 = c)).Perm ((S.zip R).flatMap (deliver unit))
  own : ∀ c, (∀ it ∈ s.sendq c, chanOf it.resume = c) ∧ (∀ it ∈ s.recvq c, chanOf it.resume = c)

theorem sendsOn_append (c : Nat) (es es' : List (ChanEv K V)) : sendsOn c (es ++ es') = sendsOn c es ++ sendsOn c es' := by
  simp [sendsOn]

theorem recvsOn_append (c : Nat) (es es' : List (ChanEv K V)) : recvsOn c (es ++ es') = recvsOn c es ++ recvsOn c es' := by
  simp [recvsOn]

theorem zip_snoc {α β : Type} {S : List α} {R : List β} (h : S.length = R.length) (x : α) (y : β) :
    (S ++ [x]).zip (R ++ [y]) = S.zip R ++ [(x, y)] := by
  rw [List.zip_append h]; rfl

/-- one event -/
theorem step_inv (ff unit : V) (hu : unit ≠ ff) (chanOf : K → Nat) (es : List (ChanEv K V)) (log : List (K × V))
    (s : St K V) (inv : Inv ff unit chanOf es log s) (e : ChanEv K V) (hc : chanOf e.who = e.chan)
    (hf : ∀ k c v w, e = .send k c v w → v ≠ ff) (T : List (K × V)) (hl : log.Perm (T ++ s.tasks)) :
    ∃ log', Inv ff unit chanOf (es ++ [e]) log' (perform ff (evOp ff unit e) e.who s).2 ∧
      log'.Perm (T ++ results e.who (perform ff (evOp ff unit e) e.who s).1 ++
        (perform ff (evOp ff unit e) e.who s).2.tasks) := by
  obtain ⟨ok, nf, q, own⟩ := inv
  cases e with
  | send k c v w =>
    have hv : v ≠ ff := hf k c v w rfl
    have hcc : chanOf k = c := hc
    cases hr : s.recvq c with
    | nil =>
      have hp : perform ff (evOp ff unit (.send k c v w)) k s = (none, sendBlock c k v w s) := by
        simp [perform, evOp, wrapOp, chanSend, sendTry_nil ff unit v hr]
      refine ⟨log, ?_, ?_⟩
      · simp only [ChanEv.who]
        rw [hp]
        refine ⟨ok.sendBlock, ?_, ?_, ?_⟩
        · intro c' it hm
          by_cases hcc' : c' = c
          · subst hcc'
            simp only [sendBlock, upd_at, List.mem_append, List.mem_singleton] at hm
            rcases hm with hm | hm
            · exact nf _ it hm
            · rw [hm]; exact hv
          · exact nf c' it (by simpa [sendBlock, upd_ne _ _ hcc'] using hm)
        · intro c'
          obtain ⟨S, R, a1, a2, a3, a4, a5⟩ := q c'
          refine ⟨S, R, ?_, ?_, a3, ?_, a5⟩
          · rw [sendsOn_append, a1]
            by_cases hcc' : c' = c
            · subst hcc'; simp [sendBlock, sendsOn]
            · simp [sendBlock, upd_ne _ _ hcc', sendsOn, Ne.symm hcc']
          · rw [recvsOn_append, a2]; simp [sendBlock, recvsOn]
          · by_cases hcc' : c' = c
            · subst hcc'; right; exact hr
            · simpa [sendBlock, upd_ne _ _ hcc'] using a4
        · intro c'
          refine ⟨?_, (own c').2⟩
          intro it hm
          by_cases hcc' : c' = c
          · subst hcc'
            simp only [sendBlock, upd_at, List.mem_append, List.mem_singleton] at hm
            rcases hm with hm | hm
            · exact (own _).1 it hm
            · rw [hm]; exact hcc
          · exact (own c').1 it (by simpa [sendBlock, upd_ne _ _ hcc'] using hm)
      · simp only [ChanEv.who]
        rw [hp]
        simpa [results, sendBlock] using hl
    | cons it rq =>
      have hp : perform ff (evOp ff unit (.send k c v w)) k s = (some (w unit), popR v c it rq s) := by
        simp [perform, evOp, wrapOp, chanSend, sendTry_cons ff unit v ok hr, hu]
      have hito : chanOf it.resume = c := (own c).2 it (by rw [hr]; simp)
      refine ⟨log ++ [(k, w unit), (it.resume, it.wrap v)], ?_, ?_⟩
      · simp only [ChanEv.who]
        rw [hp]
        refine ⟨ok.popR hr, nf, ?_, ?_⟩
        · intro c'
          obtain ⟨S, R, a1, a2, a3, a4, a5⟩ := q c'
          by_cases hcc' : c' = c
          · subst hcc'
            have hs : s.sendq c' = [] := by rcases a4 with a4 | a4; exact a4; rw [hr] at a4; cases a4
            refine ⟨S ++ [(k, v, w)], R ++ [(it.resume, it.wrap)], ?_, ?_, by simp [a3], ?_, ?_⟩
            · rw [sendsOn_append, a1]; simp [popR, hs, sendsOn]
            · rw [recvsOn_append, a2]; simp [popR, hr, recvsOn]
            · left; exact hs
            · rw [zip_snoc a3, List.flatMap_append, List.filter_append]
              refine a5.append ?_
              simp [hcc, hito, deliver]
          · refine ⟨S, R, ?_, ?_, a3, ?_, ?_⟩
            · rw [sendsOn_append, a1]; simp [popR, sendsOn, Ne.symm hcc']
            · rw [recvsOn_append, a2]; simp [popR, upd_ne _ _ hcc', recvsOn]
            · simpa [popR, upd_ne _ _ hcc'] using a4
            · rw [List.filter_append]
              simpa [hcc, hito, Ne.symm hcc'] using a5
        · intro c'
          refine ⟨(own c').1, ?_⟩
          intro it' hm
          by_cases hcc' : c' = c
          · subst hcc'
            simp only [popR, upd_at] at hm
            exact (own _).2 it' (by rw [hr]; simp [hm])
          · exact (own c').2 it' (by simpa [popR, upd_ne _ _ hcc'] using hm)
      · simp only [ChanEv.who]
        rw [hp]
        simp only [results, popR]
        have h1 := hl.append_right [(k, w unit), (it.resume, it.wrap v)]
        refine h1.trans ?_
        rw [List.append_assoc, List.append_assoc]
        refine List.Perm.append_left T ?_
        show (s.tasks ++ ([(k, w unit)] ++ [(it.resume, it.wrap v)])).Perm _
        rw [← List.append_assoc, ← List.append_assoc]
        exact List.Perm.append_right _ List.perm_append_comm
  | recv k c w =>
    have hcc : chanOf k = c := hc
    cases hs : s.sendq c with
    | nil =>
      have hp : perform ff (evOp ff unit (.recv k c w)) k s = (none, recvBlock c k w s) := by
        simp [perform, evOp, wrapOp, chanRecv, recvTry_nil ff unit hs]
      refine ⟨log, ?_, ?_⟩
      · simp only [ChanEv.who]
        rw [hp]
        refine ⟨ok.recvBlock, nf, ?_, ?_⟩
        · intro c'
          obtain ⟨S, R, a1, a2, a3, a4, a5⟩ := q c'
          refine ⟨S, R, ?_, ?_, a3, ?_, a5⟩
          · rw [sendsOn_append, a1]; simp [recvBlock, sendsOn]
          · rw [recvsOn_append, a2]
            by_cases hcc' : c' = c
            · subst hcc'; simp [recvBlock, recvsOn]
            · simp [recvBlock, upd_ne _ _ hcc', recvsOn, Ne.symm hcc']
          · by_cases hcc' : c' = c
            · subst hcc'; left; exact hs
            · simpa [recvBlock, upd_ne _ _ hcc'] using a4
        · intro c'
          refine ⟨(own c').1, ?_⟩
          intro it hm
          by_cases hcc' : c' = c
          · subst hcc'
            simp only [recvBlock, upd_at, List.mem_append, List.mem_singleton] at hm
            rcases hm with hm | hm
            · exact (own _).2 it hm
            · rw [hm]; exact hcc
          · exact (own c').2 it (by simpa [recvBlock, upd_ne _ _ hcc'] using hm)
      · simp only [ChanEv.who]
        rw [hp]
        simpa [results, recvBlock] using hl
    | cons it sq =>
      have hnv : it.val ≠ ff := nf c it (by rw [hs]; simp)
      have hp : perform ff (evOp ff unit (.recv k c w)) k s = (some (w it.val), popS unit c it sq s) := by
        simp [perform, evOp, wrapOp, chanRecv, recvTry_cons ff unit ok hs, hnv]
      have hito : chanOf it.resume = c := (own c).1 it (by rw [hs]; simp)
      refine ⟨log ++ [(it.resume, it.wrap unit), (k, w it.val)], ?_, ?_⟩
      · simp only [ChanEv.who]
        rw [hp]
        refine ⟨ok.popS hs, ?_, ?_, ?_⟩
        · intro c' it' hm
          by_cases hcc' : c' = c
          · subst hcc'
            simp only [popS, upd_at] at hm
            exact nf _ it' (by rw [hs]; simp [hm])
          · exact nf c' it' (by simpa [popS, upd_ne _ _ hcc'] using hm)
        · intro c'
          obtain ⟨S, R, a1, a2, a3, a4, a5⟩ := q c'
          by_cases hcc' : c' = c
          · subst hcc'
            have hr : s.recvq c' = [] := by rcases a4 with a4 | a4; rw [hs] at a4; cases a4; exact a4
            refine ⟨S ++ [(it.resume, it.val, it.wrap)], R ++ [(k, w)], ?_, ?_, by simp [a3], ?_, ?_⟩
            · rw [sendsOn_append, a1]; simp [popS, hs, sendsOn]
            · rw [recvsOn_append, a2]; simp [popS, hr, recvsOn]
            · right; exact hr
            · rw [zip_snoc a3, List.flatMap_append, List.filter_append]
              refine a5.append ?_
              simp [hcc, hito, deliver]
          · refine ⟨S, R, ?_, ?_, a3, ?_, ?_⟩
            · rw [sendsOn_append, a1]; simp [popS, upd_ne _ _ hcc', sendsOn]
            · rw [recvsOn_append, a2]; simp [popS, recvsOn, Ne.symm hcc']
            · simpa [popS, upd_ne _ _ hcc'] using a4
            · rw [List.filter_append]
              simpa [hcc, hito, Ne.symm hcc'] using a5
        · intro c'
          refine ⟨?_, (own c').2⟩
          intro it' hm
          by_cases hcc' : c' = c
          · subst hcc'
            simp only [popS, upd_at] at hm
            exact (own _).1 it' (by rw [hs]; simp [hm])
          · exact (own c').1 it' (by simpa [popS, upd_ne _ _ hcc'] using hm)
      · simp only [ChanEv.who]
        rw [hp]
        simp only [results, popS]
        have h1 := hl.append_right [(it.resume, it.wrap unit), (k, w it.val)]
        refine h1.trans ?_
        rw [List.append_assoc, List.append_assoc]
        refine List.Perm.append_left T ?_
        refine (List.Perm.append_left _ (List.Perm.swap _ _ _)).trans ?_
        show (s.tasks ++ ([(k, w it.val)] ++ [(it.resume, it.wrap unit)])).Perm _
        rw [← List.append_assoc, ← List.append_assoc]
        exact List.Perm.append_right _ List.perm_append_comm

theorem run_inv (ff unit : V) (hu : unit ≠ ff) (chanOf : K → Nat) (es : List (ChanEv K V)) :
    ∀ (pre : List (ChanEv K V)) (log T : List (K × V)) (s : St K V), Inv ff unit chanOf pre log s →
    log.Perm (T ++ s.tasks) → (∀ e ∈ es, chanOf e.who = e.chan) → (∀ k c v w, .send k c v w ∈ es → v ≠ ff) →
    ∃ log', Inv ff unit chanOf (pre ++ es) log' (run ff (ops ff unit es) s).2 ∧
      log'.Perm (T ++ (run ff (ops ff unit es) s).1 ++ (run ff (ops ff unit es) s).2.tasks) := by
  induction es with
  | nil => intro pre log T s inv hl _ _; exact ⟨log, by simpa [ops, run] using inv, by simpa [ops, run] using hl⟩
  | cons e es ih =>
    intro pre log T s inv hl hc hf
    obtain ⟨log1, i1, l1⟩ := step_inv ff unit hu chanOf pre log s inv e (hc e (by simp))
      (fun k c v w h => hf k c v w (by rw [h]; simp)) T hl
    obtain ⟨log2, i2, l2⟩ := ih (pre ++ [e]) log1 _ _ i1 l1 (fun e' he' => hc e' (by simp [he']))
      (fun k c v w h => hf k c v w (by simp [h]))
    refine ⟨log2, ?_, ?_⟩
    · rw [List.append_assoc] at i2
      exact i2
    · rw [List.append_assoc T] at l2
      exact l2

/-- C47: after any history of sends and receives (by any coroutines, on any channels, with any wrap functions) in
which `false` is never sent, the results handed out for a channel, at once or through the scheduler's task queue,
are exactly those of first-come first-served rendezvous: the `i`-th send is paired with the `i`-th receive, each
exactly once, and whoever has a partner has been served. `chanOf` tells which channel a coroutine's operation was
about. -/
theorem C47_rendezvous_partial (ff unit : V) (hu : unit ≠ ff) (es : List (ChanEv K V)) (chanOf : K → Nat)
    (hc : ∀ e ∈ es, chanOf e.who = e.chan) (hf : ∀ k c v w, ChanEv.send k c v w ∈ es → v ≠ ff) (c : Nat) :
    (((run ff (ops ff unit es) St.init).1 ++ (run ff (ops ff unit es) St.init).2.tasks).filter
      (fun e => chanOf e.1 = c)).Perm (rendezvous unit c es) := by
  obtain ⟨log, inv, hl⟩ := run_inv ff unit hu chanOf es [] [] [] St.init
    ⟨OK.init, by simp [St.init], fun c => ⟨[], [], by simp [sendsOn, St.init], by simp [recvsOn, St.init], rfl,
      Or.inl rfl, by simp⟩, by simp [St.init]⟩ (by simp [St.init]) hc hf
  obtain ⟨S, R, a1, a2, a3, a4, a5⟩ := inv.q c
  simp only [List.nil_append] at a1 a2 hl
  have hz : rendezvous unit c es = (S.zip R).flatMap (deliver unit) := by
    unfold rendezvous
    rw [a1, a2, List.zip_append a3]
    have : ((run ff (ops ff unit es) St.init).2.sendq c).map (fun it => (it.resume, it.val, it.wrap)) = [] ∨
        ((run ff (ops ff unit es) St.init).2.recvq c).map (fun it => (it.resume, it.wrap)) = [] := by
      rcases a4 with a4 | a4
      · left; rw [a4]; rfl
      · right; rw [a4]; rfl
    rcases this with h | h
    · rw [h, List.zip_nil_left, List.append_nil]; rfl
    · rw [h, List.zip_nil_right, List.append_nil]; rfl
  rw [hz]
  exact (hl.filter _).symm.trans a5

/-- C47: an operation wrapped again and again behaves as if it were wrapped once, in the function that applies the
wrap functions to what the operation yields, the first one first -/
theorem C47_wraps (op : Op K V) (fns : List (V → V)) :
    fns.foldl wrapOp op = wrapOp op fun v => fns.foldl (fun v f => f v) v := by
  induction fns generalizing op with
  | nil => rfl
  | cons f fns ih => rw [List.foldl_cons, ih]; rfl

/-- a received 5, doubled and then incremented -/
example (k : Nat) : ([(· * 2), (· + 1)].foldl wrapOp (chanRecv (K := Nat) 99 0 3)).wrap 5 = 11 := rfl

/-- C47 is false when `false` is sent: a receiver that finds a waiting sender of `false` lets the sender go on, but
takes the value for "nothing there" and waits; the value is lost. -/
theorem C47_false_is_lost (ff unit : V) (hu : unit ≠ ff) (a b : K) :
    let r := run ff (ops ff unit [.send a 0 ff id, .recv b 0 id]) St.init
    r.1 = [] ∧ r.2.tasks = [(a, unit)] ∧ (r.2.sendq 0).length = 0 ∧ (r.2.recvq 0).map (·.resume) = [b] := by
  simp [ops, run, perform, evOp, wrapOp, chanSend, chanRecv, sendTry, recvTry, sendLoop, recvLoop, St.init, upd,
    sendBlock, recvBlock, ChanEv.who, results]

/-- a case that meets the hypotheses of `C47_rendezvous_partial`, with every kind of meeting -/
example : let es : List (ChanEv Nat Nat) := [.send 10 1 5 id, .recv 20 2 id, .send 11 1 6 id, .recv 12 1 (· + 1), .send 21 2 7 id]
    (∀ e ∈ es, e.who / 10 = e.chan) ∧ rendezvous 0 1 es = [(10, 0), (12, 6)] ∧
    (run 99 (ops 99 0 es) St.init).1 = [(12, 6), (21, 0)] ∧
    (run 99 (ops 99 0 es) St.init).2.tasks = [(10, 0), (20, 7)] := by
  refine ⟨by decide, by decide, by decide, by decide⟩

/-! ### C48 -/

/-- the operations a program can build, never sending `false` -/
inductive IsOp (ff unit : V) : Op K V → Prop where
  | send (c : Nat) (v : V) (hv : v ≠ ff) : IsOp ff unit (chanSend ff unit c v)
  | recv (c : Nat) : IsOp ff unit (chanRecv ff unit c)
  | wrap (op : Op K V) (fn : V → V) : IsOp ff unit op → IsOp ff unit (wrapOp op fn)
  | choice (l : List (Op K V)) : (∀ op ∈ l, IsOp ff unit op) → IsOp ff unit (choiceOp ff l)

/-- the invariant of all histories -/
def Good (ff : V) (s : St K V) : Prop := OK s ∧ ∀ c, ∀ it ∈ s.sendq c, it.val ≠ ff

theorem good_sendTry {ff unit v : V} {c : Nat} {s : St K V} (h : Good ff s) : Good ff (sendTry ff unit c v s).2 := by
  cases hr : s.recvq c with
  | nil => rw [sendTry_nil ff unit v hr]; exact h
  | cons it q => rw [sendTry_cons ff unit v h.1 hr]; exact ⟨h.1.popR hr, h.2⟩

theorem good_recvTry {ff unit : V} {c : Nat} {s : St K V} (h : Good ff s) : Good ff (recvTry ff unit c s).2 := by
  cases hr : s.sendq c with
  | nil => rw [recvTry_nil ff unit hr]; exact h
  | cons it q =>
    rw [recvTry_cons ff unit h.1 hr]
    refine ⟨h.1.popS hr, ?_⟩
    intro c' it' hm
    by_cases hcc' : c' = c
    · subst hcc'
      simp only [popS, upd_at] at hm
      exact h.2 _ it' (by rw [hr]; simp [hm])
    · exact h.2 c' it' (by simpa [popS, upd_ne _ _ hcc'] using hm)

theorem good_op {ff unit : V} {op : Op K V} (h : IsOp ff unit op) :
    (∀ s, Good ff s → Good ff (op.try' s).2) ∧ (∀ k w s, Good ff s → Good ff (op.block k w s)) := by
  induction h with
  | send c v hv =>
    refine ⟨fun s hs => good_sendTry hs, fun k w s hs => ⟨hs.1.sendBlock, ?_⟩⟩
    intro c' it hm
    by_cases hcc' : c' = c
    · subst hcc'
      simp only [chanSend, sendBlock, upd_at, List.mem_append, List.mem_singleton] at hm
      rcases hm with hm | hm
      · exact hs.2 _ it hm
      · rw [hm]; exact hv
    · exact hs.2 c' it (by simpa [chanSend, sendBlock, upd_ne _ _ hcc'] using hm)
  | recv c => exact ⟨fun s hs => good_recvTry hs, fun k w s hs => ⟨hs.1.recvBlock, hs.2⟩⟩
  | wrap op fn _ ih => exact ih
  | choice l hall ih =>
    constructor
    · intro s hs
      show Good ff (choiceOpsTry ff l s).2
      induction l generalizing s with
      | nil => exact hs
      | cons op l ihl =>
        have h1 := (ih op (by simp)).1 s hs
        simp only [choiceOpsTry]
        split
        · exact ihl (fun o ho => hall o (by simp [ho])) (fun o ho => ih o (by simp [ho])) _ h1
        · exact h1
    · intro k w s hs
      show Good ff (choiceBlock l k w s)
      unfold choiceBlock
      induction l generalizing s with
      | nil => exact hs
      | cons op l ihl =>
        exact ihl (fun o ho => hall o (by simp [ho])) (fun o ho => ih o (by simp [ho])) _ ((ih op (by simp)).2 _ _ s hs)

theorem good_run {ff unit : V} (es : List (K × Op K V)) (he : ∀ e ∈ es, IsOp ff unit e.2) :
    ∀ s, Good ff s → Good ff (run ff es s).2 := by
  induction es with
  | nil => intro s hs; exact hs
  | cons e es ih =>
    intro s hs
    have h := good_op (he e (by simp))
    refine ih (fun e' he' => he e' (by simp [he'])) _ ?_
    show Good ff (perform ff e.2 e.1 s).2
    unfold perform
    simp only []
    split
    · exact h.2 _ _ _ (h.1 s hs)
    · exact h.1 s hs

/-- one alternative of a choice, with its wrap function -/
inductive Alt (V : Type) where
  | send (c : Nat) (v : V) (w : V → V)
  | recv (c : Nat) (w : V → V)

/-- its operation -/
def Alt.op (ff unit : V) : Alt V → Op K V
  | .send c v w => wrapOp (chanSend ff unit c v) w
  | .recv c w => wrapOp (chanRecv ff unit c) w

/-- a partner is waiting for it -/
def Alt.ready (s : St K V) : Alt V → Prop
  | .send c _ _ => s.recvq c ≠ []
  | .recv c _ => s.sendq c ≠ []

/-- the meeting of the alternative with its first partner: the partner (and nobody else) is resumed and leaves its
queue, all other queues stay as they are, and `r` is the performer's result -/
def Alt.Meets (unit : V) (s s' : St K V) (r : V) : Alt V → Prop
  | .send c v w => ∃ it q, s.recvq c = it :: q ∧ r = w unit ∧ s'.tasks = s.tasks ++ [(it.resume, it.wrap v)] ∧
      s'.recvq = upd s.recvq c q ∧ s'.sendq = s.sendq
  | .recv c w => ∃ it q, s.sendq c = it :: q ∧ r = w it.val ∧ s'.tasks = s.tasks ++ [(it.resume, it.wrap unit)] ∧
      s'.sendq = upd s.sendq c q ∧ s'.recvq = s.recvq

theorem try_unready {ff unit : V} {a : Alt V} {s : St K V} (h : ¬ a.ready s) : (a.op ff unit).try' s = (ff, s) := by
  cases a with
  | send c v w => exact sendTry_nil ff unit v (Classical.not_not.mp h)
  | recv c w => exact recvTry_nil ff unit (Classical.not_not.mp h)

theorem choice_unready {ff unit : V} {pre : List (Alt V)} {s : St K V} (h : ∀ a ∈ pre, ¬ a.ready s)
    (rest : List (Op K V)) : choiceOpsTry ff (pre.map (Alt.op ff unit) ++ rest) s = choiceOpsTry ff rest s := by
  induction pre with
  | nil => rfl
  | cons a pre ih =>
    rw [List.map_cons, List.cons_append, choiceOpsTry, try_unready (h a (by simp))]
    simp only [if_true]
    exact ih (fun b hb => h b (by simp [hb]))

/-- C48, part 1: in every state a program can reach, a choice that finds some partner waiting is done at once:
exactly one alternative, the first ready one, meets its partner; nobody else is resumed and nothing is left in any
queue on behalf of the performer. (Wrap functions must not answer `false`, see below.) -/
theorem C48_ready_choice_partial (ff unit : V) (hu : unit ≠ ff) (hist : List (K × Op K V))
    (hh : ∀ e ∈ hist, IsOp ff unit e.2) (k : K) (pre post : List (Alt V)) (a : Alt V)
    (hw : ∀ b ∈ pre ++ a :: post, match b with | .send _ _ w => ∀ x, w x ≠ ff | .recv _ w => ∀ x, w x ≠ ff)
    (hpre : ∀ b ∈ pre, ¬ b.ready (run ff hist St.init).2) (ha : a.ready (run ff hist St.init).2) :
    ∃ r s', perform ff (choiceOp ff ((pre ++ a :: post).map (Alt.op ff unit))) k (run ff hist St.init).2 = (some r, s') ∧
      a.Meets unit (run ff hist St.init).2 s' r := by
  have good := good_run hist hh St.init ⟨OK.init, by simp [St.init]⟩
  generalize (run ff hist St.init).2 = s at *
  have hwa := hw a (by simp)
  have ht : ∃ r s', choiceOpsTry ff ((pre ++ a :: post).map (Alt.op ff unit)) s = (r, s') ∧ r ≠ ff ∧ a.Meets unit s s' r := by
    rw [List.map_append, choice_unready hpre, List.map_cons, choiceOpsTry]
    cases a with
    | send c v w =>
      cases hr : s.recvq c with
      | nil => exact absurd hr ha
      | cons it q =>
        refine ⟨w unit, popR v c it q s, ?_, hwa _, it, q, hr, rfl, rfl, rfl, rfl⟩
        simp [Alt.op, wrapOp, chanSend, sendTry_cons ff unit v good.1 hr, hu]
    | recv c w =>
      cases hr : s.sendq c with
      | nil => exact absurd hr ha
      | cons it q =>
        have hnv := good.2 c it (by rw [hr]; simp)
        refine ⟨w it.val, popS unit c it q s, ?_, hwa _, it, q, hr, rfl, rfl, rfl, rfl⟩
        simp [Alt.op, wrapOp, chanRecv, recvTry_cons ff unit good.1 hr, hnv]
  obtain ⟨r, s', h1, h2, h3⟩ := ht
  refine ⟨r, s', ?_, h3⟩
  unfold perform choiceOp
  simp only [h1]
  rw [if_neg h2]

/-- the entries a choice leaves in the queues when it has to wait -/
def Alt.entryS (k : K) (c : Nat) : Alt V → List (K × V × (V → V))
  | .send c' v w => if c' = c then [(k, v, w)] else []
  | .recv _ _ => []

/-- the same for the receive queue -/
def Alt.entryR (k : K) (c : Nat) : Alt V → List (K × (V → V))
  | .send _ _ _ => []
  | .recv c' w => if c' = c then [(k, w)] else []

theorem choiceBlock_spec (ff unit : V) (k : K) (alts : List (Alt V)) : ∀ s : St K V,
    let s' := choiceBlock (alts.map (Alt.op ff unit)) k (fun x => x) s
    s'.tasks = s.tasks ∧ ∀ c,
      (s'.sendq c).map (fun it => (it.resume, it.val, it.wrap)) =
        (s.sendq c).map (fun it => (it.resume, it.val, it.wrap)) ++ alts.flatMap (Alt.entryS k c) ∧
      (s'.recvq c).map (fun it => (it.resume, it.wrap)) =
        (s.recvq c).map (fun it => (it.resume, it.wrap)) ++ alts.flatMap (Alt.entryR k c) := by
  induction alts with
  | nil => intro s; simp [choiceBlock]
  | cons a alts ih =>
    intro s
    cases a with
    | send c v w =>
      obtain ⟨h1, h2⟩ := ih (sendBlock c k v w s)
      refine ⟨h1, fun c' => ?_⟩
      obtain ⟨h3, h4⟩ := h2 c'
      refine ⟨h3.trans ?_, h4.trans ?_⟩
      · by_cases hc : c' = c
        · subst hc; simp [sendBlock, Alt.entryS]
        · simp [sendBlock, Alt.entryS, upd_ne _ _ hc, Ne.symm hc]
      · simp [sendBlock, Alt.entryR]
    | recv c w =>
      obtain ⟨h1, h2⟩ := ih (recvBlock c k w s)
      refine ⟨h1, fun c' => ?_⟩
      obtain ⟨h3, h4⟩ := h2 c'
      refine ⟨h3.trans ?_, h4.trans ?_⟩
      · simp [recvBlock, Alt.entryS]
      · by_cases hc : c' = c
        · subst hc; simp [recvBlock, Alt.entryR]
        · simp [recvBlock, Alt.entryR, upd_ne _ _ hc, Ne.symm hc]

/-- C48, part 2: a choice without any waiting partner resumes nobody and waits on every one of its alternatives. -/
theorem C48_waiting_choice_partial (ff unit : V) (k : K) (alts : List (Alt V)) (s : St K V)
    (h : ∀ a ∈ alts, ¬ a.ready s) :
    let r := perform ff (choiceOp ff (alts.map (Alt.op ff unit))) k s
    r.1 = none ∧ r.2.tasks = s.tasks ∧ ∀ c,
      (r.2.sendq c).map (fun it => (it.resume, it.val, it.wrap)) =
        (s.sendq c).map (fun it => (it.resume, it.val, it.wrap)) ++ alts.flatMap (Alt.entryS k c) ∧
      (r.2.recvq c).map (fun it => (it.resume, it.wrap)) =
        (s.recvq c).map (fun it => (it.resume, it.wrap)) ++ alts.flatMap (Alt.entryR k c) := by
  have ht : choiceOpsTry ff (alts.map (Alt.op ff unit)) s = (ff, s) := by
    have := choice_unready (ff := ff) (unit := unit) h []
    rw [List.append_nil] at this
    rw [this]; rfl
  have : perform ff (choiceOp ff (alts.map (Alt.op ff unit))) k s =
      (none, choiceBlock (alts.map (Alt.op ff unit)) k (fun x => x) s) := by
    unfold perform choiceOp
    simp only [ht, if_true]
  rw [this]
  exact ⟨rfl, choiceBlock_spec ff unit k alts s⟩

/-- C48 is false: a choice that waits on two channels is resumed twice, once for each partner that comes, because
every alternative gets its own state. -/
theorem C48_commits_twice (ff unit x y : V) (hu : unit ≠ ff) (a b d : K) :
    let r := run ff [(a, choiceOp ff [chanRecv ff unit 0, chanRecv ff unit 1]), (b, chanSend ff unit 0 x),
      (d, chanSend ff unit 1 y)] St.init
    r.1 = [(b, unit), (d, unit)] ∧ r.2.tasks = [(a, x), (a, y)] := by
  simp [run, perform, choiceOp, choiceOpsTry, choiceBlock, chanSend, chanRecv, sendTry, recvTry, sendLoop, recvLoop,
    St.init, upd, recvBlock, results, hu]

/-- C48 is false: if the wrap function of the alternative that met its partner answers `false`, the choice tries the
next alternatives no more, but waits on all of them, so it commits a second time. -/
theorem C48_wrap_false_commits_again (ff unit x y : V) (hu : unit ≠ ff) (a b d : K) :
    let r := run ff [(b, chanSend ff unit 0 x), (a, choiceOp ff [wrapOp (chanRecv ff unit 0) (fun _ => ff)]),
      (d, chanSend ff unit 0 y)] St.init
    r.1 = [(d, unit)] ∧ r.2.tasks = [(b, unit), (a, ff)] := by
  simp [run, perform, choiceOp, choiceOpsTry, choiceBlock, chanSend, chanRecv, sendTry, recvTry, sendLoop, recvLoop,
    St.init, upd, recvBlock, sendBlock, wrapOp, results, hu]

/-- a case that meets the hypotheses of `C48_ready_choice_partial` -/
example : let s := (run 99 [((7 : Nat), chanSend 99 (0 : Nat) 1 5)] St.init).2
    ¬ (Alt.recv 0 id : Alt Nat).ready s ∧ (Alt.recv 1 (fun _ => 3) : Alt Nat).ready s := by
  refine ⟨fun h => h ?_, ?_⟩
  · decide
  · simp [Alt.ready, run, perform, chanSend, sendTry, sendLoop, sendBlock, St.init, upd]

end Cora.Chan
