import Verif.Model.Sockets
import Verif.Lemmas.Reader
/-
C96: connections are opened and closed, and no descriptor is lost.
-/
open Spec Spec.Sockets
namespace Cora.Sockets
variable {Addr : Type}

/-- no descriptor is given that is open -/
structure Sound (S : System Addr) : Prop where
  socket : ∀ i t fd, S.socket i t = some fd → t fd = none
  accept : ∀ ln t fd, S.accept ln t = some fd → t fd = none

theorem put_put {t : Table Addr} {fd : Nat} {a b} : (t.put fd a).put fd b = t.put fd b := by
  funext x
  simp only [Table.put]
  split <;> rfl
theorem put_same {t : Table Addr} {fd : Nat} {a} : (t.put fd a) fd = a := if_pos rfl
theorem put_back {t : Table Addr} {fd : Nat} (h : t fd = none) : t.put fd none = t := by
  funext x
  simp only [Table.put]
  split
  · rename_i e; rw [e, h]
  · rfl

theorem setNonBlock_put {t : Table Addr} {fd : Nat} {r : Role Addr} : setNonBlock (t.put fd (some ⟨r, true⟩)) fd = t.put fd (some ⟨r, false⟩) := by
  simp only [setNonBlock, put_same, put_put, Option.map_some]

theorem split_text (s : Bytes) : (∃ host port, (58 : UInt8) ∉ host ∧ s = host ++ 58 :: port ∧ Net.splitHostAndPort s = some (host, port)) ∨
    ((58 : UInt8) ∉ s ∧ Net.splitHostAndPort s = none) := by
  unfold Net.splitHostAndPort
  induction s with
  | nil => exact .inr ⟨by simp, rfl⟩
  | cons c s ih =>
    by_cases hc : c = 58
    · subst hc
      exact .inl ⟨[], s, by simp, rfl, by simp⟩
    · rcases ih with ⟨host, port, h1, h2, h3⟩ | ⟨h1, h3⟩
      · refine .inl ⟨c :: host, port, by simp [h1, Ne.symm hc], by simp [h2], ?_⟩
        simp only at h3 ⊢
        split at h3
        · cases h3
        · simp only [Option.some.injEq, Prod.mk.injEq] at h3
          rw [List.takeWhile_cons_of_pos (by simpa using hc)]
          rename_i hne
          rw [if_neg (by simpa using hne)]
          simp [h3]
      · refine .inr ⟨by simp [h1, Ne.symm hc], ?_⟩
        simp only at h3 ⊢
        split at h3
        · rename_i he
          rw [List.takeWhile_cons_of_pos (by simpa using hc), if_pos (by simpa using he)]
        · cases h3

theorem try_spec {S : System Addr} (hS : Sound S) {t : Table Addr} : ∀ {as : List Addr} {i : Nat} {r : Option Nat} {t' : Table Addr},
    tryAddresses S i as t = (r, t') →
    (r = none ∧ t' = t ∧ ∀ j (h : j < as.length), S.connect as[j] = true → S.socket (i + j) t = none) ∨
    (∃ fd before a after, r = some fd ∧ as = before ++ a :: after ∧ S.connect a = true ∧
      (∀ j (h : j < before.length), S.connect before[j] = true → S.socket (i + j) t = none) ∧
      t fd = none ∧ t' = t.put fd (some ⟨.connected a, true⟩)) := by
  intro as
  induction as with
  | nil => intro i r t' h; cases h; exact .inl ⟨rfl, rfl, by intro j h; cases h⟩
  | cons a as ih =>
    intro i r t' h
    rw [tryAddresses] at h
    have go : (S.connect a = true → S.socket i t = none) → tryAddresses S (i + 1) as t = (r, t') → (r = none ∧ t' = t ∧ ∀ j (h : j < (a :: as).length), S.connect (a :: as)[j] = true → S.socket (i + j) t = none) ∨
        (∃ fd before b after, r = some fd ∧ a :: as = before ++ b :: after ∧ S.connect b = true ∧
          (∀ j (h : j < before.length), S.connect before[j] = true → S.socket (i + j) t = none) ∧
          t fd = none ∧ t' = t.put fd (some ⟨.connected b, true⟩)) := by
      intro h0 h
      have hj : ∀ j, i + 1 + j = i + (j + 1) := by omega
      rcases ih h with ⟨h1, h2, h3⟩ | ⟨fd, before, b, after, h1, h2, h3, h4, h5, h6⟩
      · refine .inl ⟨h1, h2, fun j hlt hc => ?_⟩
        cases j with
        | zero => exact h0 hc
        | succ j => rw [← hj]; exact h3 j (by simpa using hlt) hc
      · refine .inr ⟨fd, a :: before, b, after, h1, by rw [h2]; rfl, h3, fun j hlt hc => ?_, h5, h6⟩
        cases j with
        | zero => exact h0 hc
        | succ j => rw [← hj]; exact h4 j (by simpa using hlt) hc
    cases hs : S.socket i t with
    | none =>
      rw [hs] at h
      exact go (fun _ => hs) h
    | some fd =>
      rw [hs] at h
      simp only at h
      have hfd := hS.socket _ _ _ hs
      cases hc : S.connect a with
      | true =>
        rw [hc, if_pos rfl] at h
        cases h
        exact .inr ⟨fd, [], a, as, rfl, rfl, hc, fun j h => absurd h (Nat.not_lt_zero _), hfd, by rw [put_put]⟩
      | false =>
        rw [hc] at h
        simp only [Bool.false_eq_true, if_false, put_put, put_back hfd] at h
        exact go (fun e => by rw [hc] at e; cases e) h

/-- **C96**, `net-dial`. If it answers with a descriptor, then the argument is a host and a port, the descriptor was not open before and is now
connected to the first of their addresses that accepts connections and for which there is a socket; operations on it do not block; all other
descriptors are as before. If it answers with the empty list, all descriptors are as before, and if there is a colon in the argument and the host
is known, no address accepts connections (or there was no socket for it). -/
theorem C96_dial {S : System Addr} (hS : Sound S) {arg : Bytes} {t t' : Table Addr} {r : Option Nat} (h : netDial S arg t = (r, t')) :
    (r = none ∧ t' = t ∧ ∀ host port as, (58 : UInt8) ∉ host → arg = host ++ 58 :: port → S.resolve (cname host) (cname port) = some as →
      ∀ j (h : j < as.length), S.connect as[j] = true → S.socket j t = none) ∨
    (∃ fd host port before a after, r = some fd ∧ (58 : UInt8) ∉ host ∧ arg = host ++ 58 :: port ∧
      S.resolve (cname host) (cname port) = some (before ++ a :: after) ∧ S.connect a = true ∧
      (∀ j (h : j < before.length), S.connect before[j] = true → S.socket j t = none) ∧
      t fd = none ∧ t' = t.put fd (some ⟨.connected a, false⟩)) := by
  unfold netDial at h
  rcases split_text arg with ⟨host, port, h1, h2, h3⟩ | ⟨h1, h3⟩
  · rw [h3] at h
    simp only at h
    have uniq : ∀ host' port', (58 : UInt8) ∉ host' → arg = host' ++ 58 :: port' → host' = host ∧ port' = port := by
      intro host' port' g1 g2
      rcases split_text arg with ⟨h', p', k1, k2, k3⟩ | ⟨k1, _⟩
      · have e : ∀ (a b c d : Bytes), (58 : UInt8) ∉ a → (58 : UInt8) ∉ c → a ++ 58 :: b = c ++ 58 :: d → a = c ∧ b = d := by
          intro a
          induction a with
          | nil =>
            intro b c d _ hc e
            cases c with
            | nil => simp at e; exact ⟨rfl, e⟩
            | cons x c => simp at e; simp [← e.1] at hc
          | cons x a ih =>
            intro b c d ha hc e
            cases c with
            | nil => simp at e; simp [e.1] at ha
            | cons y c =>
              simp only [List.cons_append, List.cons.injEq] at e
              simp only [List.mem_cons, not_or] at ha hc
              obtain ⟨r1, r2⟩ := ih b c d ha.2 hc.2 e.2
              exact ⟨by rw [e.1, r1], r2⟩
        exact e _ _ _ _ g1 h1 (g2.symm.trans h2)
      · rw [g2] at k1; simp at k1
    cases hr : S.resolve (cname host) (cname port) with
    | none =>
      rw [hr] at h
      cases h
      refine .inl ⟨rfl, rfl, fun host' port' as g1 g2 g3 => ?_⟩
      obtain ⟨rfl, rfl⟩ := uniq _ _ g1 g2
      rw [hr] at g3
      cases g3
    | some as =>
      rw [hr] at h
      simp only at h
      cases ht : tryAddresses S 0 as t with
      | mk r1 t1 =>
        rw [ht] at h
        rcases try_spec hS ht with ⟨rfl, e2, e3⟩ | ⟨fd, before, a, after, rfl, e2, e3, e4, e5, e6⟩
        · cases h
          refine .inl ⟨rfl, e2, fun host' port' as' g1 g2 g3 j hj hc => ?_⟩
          obtain ⟨rfl, rfl⟩ := uniq _ _ g1 g2
          rw [hr] at g3
          cases g3
          simpa using e3 j hj hc
        · cases h
          exact .inr ⟨fd, host, port, before, a, after, rfl, h1, h2, by rw [← e2]; exact hr, e3, fun j hj hc => by simpa using e4 j hj hc, e5,
            by rw [e6, setNonBlock_put]⟩
  · rw [h3] at h
    cases h
    refine .inl ⟨rfl, rfl, fun host port as _ g2 => ?_⟩
    rw [g2] at h1
    simp at h1

/-- **C96**, `net-listen`: what holds. If it answers with a descriptor, then it was not open before and now listens at the port (the number
that the part after the first colon begins with, modulo 2^16); operations on it do not block; all other descriptors are as before. Missing:
if it answers with the empty list, a descriptor may have been lost (`C96_listen_lost_wrong`), and it listens for connections to any host
(`C96_listen_host_wrong`). -/
theorem C96_listen_partial {S : System Addr} (hS : Sound S) {arg : Bytes} {t t' : Table Addr} {fd : Nat} (h : netListen S arg t = (some fd, t')) :
    ∃ host port, (58 : UInt8) ∉ host ∧ arg = host ++ 58 :: port ∧ t fd = none ∧
      t' = t.put fd (some ⟨.listening (toPort (atoi (cname port))), false⟩) := by
  unfold netListen at h
  rcases split_text arg with ⟨host, port, h1, h2, h3⟩ | ⟨h1, h3⟩
  · rw [h3] at h
    simp only at h
    cases hs : S.socket 0 t with
    | none => rw [hs] at h; cases h
    | some fd' =>
      rw [hs] at h
      simp only at h
      split at h
      · cases h
      · split at h
        · cases h
        · cases h
          exact ⟨host, port, h1, h2, hS.socket _ _ _ hs, by rw [put_put, setNonBlock_put]⟩
  · rw [h3] at h; cases h

theorem digit_not_zero {ds : Bytes} (h : ds.all Reader.isdigit = true) : cname ds = ds := by
  unfold cname
  induction ds with
  | nil => rfl
  | cons c ds ih =>
    simp only [List.all_cons, Bool.and_eq_true] at h
    rw [List.takeWhile_cons_of_pos, ih h.2]
    have := h.1
    simp only [ne_eq, decide_not, Bool.not_eq_true', decide_eq_false_iff_not]
    intro hc
    subst hc
    simp [Reader.isdigit] at this

/-- **C96**, the port: if it is written as a decimal number below 2^16, then it is that number. -/
theorem C96_port {ds : Bytes} (hne : ds ≠ []) (hd : ds.all Reader.isdigit = true) (hv : digitsVal ds 0 < 65536) :
    toPort (atoi (cname ds)) = digitsVal ds 0 := by
  have htw : ∀ {ds : Bytes}, ds.all Reader.isdigit = true → ds.takeWhile Reader.isdigit = ds := by
    intro ds
    induction ds with
    | nil => intro _; rfl
    | cons c ds ih =>
      intro h
      simp only [List.all_cons, Bool.and_eq_true] at h
      rw [List.takeWhile_cons_of_pos h.1, ih h.2]
  rw [digit_not_zero hd]
  cases ds with
  | nil => exact absurd rfl hne
  | cons c ds =>
    have h1 : Reader.isdigit c = true := by simp only [List.all_cons, Bool.and_eq_true] at hd; exact hd.1
    have hsp : (c :: ds).dropWhile Reader.isspace = c :: ds := by
      rw [List.dropWhile_cons_of_neg]
      simp only [Reader.isdigit, Reader.isspace, Bool.and_eq_true, decide_eq_true_eq, UInt8.le_iff_toNat_le, Bool.or_eq_true, beq_iff_eq] at h1 ⊢
      rintro (e | e)
      · subst e; simp at h1
      · have := h1.1
        have := e.2
        simp at *
        omega
    have e : atoi (c :: ds) = Reader.atoi false (c :: ds) := by
      unfold atoi
      rw [hsp]
      split
      · rename_i heq; cases heq; simp [Reader.isdigit] at h1
      · rename_i heq; cases heq; simp [Reader.isdigit] at h1
      · rw [htw hd]
    rw [e, Reader.atoi_pos (by omega)]
    unfold toPort
    omega

/-- **C96**, `net-accept`: if it answers with a descriptor, then it is for a connection that came in at the port; it was not open before, operations on
it do not block, and all other descriptors are as before. Otherwise all are as before. -/
theorem C96_accept {S : System Addr} (hS : Sound S) {ln : Nat} {t t' : Table Addr} {r : Option Nat} (h : netAccept S ln t = (r, t')) :
    (r = none ∧ t' = t) ∨ (∃ fd p b, r = some fd ∧ t ln = some ⟨.listening p, b⟩ ∧ t fd = none ∧ t' = t.put fd (some ⟨.incoming p, false⟩)) := by
  unfold netAccept at h
  split at h
  · rename_i p b hl
    cases ha : S.accept ln t with
    | none => rw [ha] at h; cases h; exact .inl ⟨rfl, rfl⟩
    | some fd =>
      rw [ha] at h
      cases h
      exact .inr ⟨fd, p, b, rfl, hl, hS.accept _ _ _ ha, by rw [setNonBlock_put]⟩
  · cases h
    exact .inl ⟨rfl, rfl⟩

/-- a `net-listen` that got a socket and failed -/
def Fails (S : System Addr) (t : Table Addr) : Op → Prop
  | .listen a => (netListen S a t).1 = none ∧ (netListen S a t).2 ≠ t
  | _ => False

/-- none of the operations is one -/
def NoFailures : Table Addr → List (System Addr × Op) → Prop
  | _, [] => True
  | t, (S, op) :: ops => ¬ Fails S t op ∧ NoFailures (perform S t op).2 ops

theorem perform_open {S : System Addr} (hS : Sound S) {t : Table Addr} {op : Op} (h : ¬ Fails S t op) (fd : Nat) :
    ((perform S t op).2 fd).isSome = isOpen fd (t fd).isSome [(perform S t op).1] := by
  have put_open : ∀ x d, (t.put x (some d) fd).isSome = isOpen fd (t fd).isSome [.got x] := by
    intro x d
    simp only [Table.put, isOpen]
    by_cases e : fd = x
    · rw [if_pos e, if_pos e.symm]; rfl
    · rw [if_neg e, if_neg fun e' => e e'.symm]
  cases op with
  | listen a =>
    simp only [perform]
    cases hl : netListen S a t with
    | mk r t' =>
      cases r with
      | none =>
        simp only [Fails, hl, true_and, ne_eq] at h
        have h : t' = t := Classical.not_not.mp h
        subst h
        rfl
      | some x =>
        obtain ⟨_, _, _, _, _, rfl⟩ := C96_listen_partial hS hl
        exact put_open _ _
  | dial a =>
    simp only [perform]
    cases hl : netDial S a t with
    | mk r t' =>
      rcases C96_dial hS hl with ⟨rfl, rfl, _⟩ | ⟨x, _, _, _, _, _, rfl, _, _, _, _, _, _, rfl⟩
      · rfl
      · exact put_open _ _
  | accept ln =>
    simp only [perform]
    cases hl : netAccept S ln t with
    | mk r t' =>
      rcases C96_accept hS hl with ⟨rfl, rfl⟩ | ⟨x, _, _, rfl, _, _, rfl⟩
      · rfl
      · exact put_open _ _
  | close x =>
    simp only [perform, netClose, Table.put, isOpen]
    by_cases e : fd = x
    · rw [if_pos e, if_pos e.symm]; rfl
    · rw [if_neg e, if_neg fun e' => e e'.symm]

/-- **C96**, no descriptor is lost. After any operations, among which no `net-listen` got a socket and failed, a descriptor is open if and only if it
was open before or one of the operations answered with it, and it was not closed after that. -/
theorem C96_open_partial : ∀ {ops : List (System Addr × Op)} {t : Table Addr}, (∀ o ∈ ops, Sound o.1) → NoFailures t ops → ∀ fd,
    ((performs t ops).2 fd).isSome = isOpen fd (t fd).isSome (performs t ops).1
  | [], _, _, _, _ => rfl
  | (S, op) :: ops, t, hS, hf, fd => by
    have h1 := perform_open (hS _ List.mem_cons_self) hf.1 fd
    have h2 := C96_open_partial (fun o ho => hS o (List.mem_cons_of_mem _ ho)) hf.2 fd
    simp only [performs]
    rw [h2, h1]
    cases (perform S t op).1 <;> rfl

/-! ### where the code is wrong -/

/-- the host is not looked at: the program listens for connections to any -/
theorem C96_listen_host_wrong (S : System Addr) (t : Table Addr) {host host' : Bytes} (h : (58 : UInt8) ∉ host) (h' : (58 : UInt8) ∉ host')
    (port : Bytes) : netListen S (host ++ 58 :: port) t = netListen S (host' ++ 58 :: port) t := by
  have e : ∀ host : Bytes, (58 : UInt8) ∉ host → Net.splitHostAndPort (host ++ 58 :: port) = some (host, port) := by
    intro host h
    unfold Net.splitHostAndPort
    have : (host ++ 58 :: port).takeWhile (· != 58) = host := by
      rw [List.takeWhile_append_of_pos (by intro x hx; simp; rintro rfl; exact h hx)]
      simp
    simp [this]
  unfold netListen
  rw [e _ h, e _ h']

/-- `n` times the same `net-listen` -/
def again (S : System Addr) (arg : Bytes) (t : Table Addr) : Nat → Table Addr
  | 0 => t
  | n + 1 => again S arg (netListen S arg t).2 n

/-- If a port cannot be used, every attempt leaves a descriptor open, which the program does not get to know. -/
theorem C96_listen_lost_wrong {S : System Addr} (hS : Sound S) (hsome : ∀ t, (∃ fd, t fd = none) → (S.socket 0 t).isSome = true) {host port : Bytes}
    (h : (58 : UInt8) ∉ host) (hb : S.bind (toPort (atoi (cname port))) = false) (n : Nat) (t : Table Addr)
    (hfin : ∃ N, ∀ fd, N ≤ fd → t fd = none) :
    (netListen S (host ++ 58 :: port) t).1 = none ∧
    ∃ fds : List Nat, fds.length = n ∧ fds.Nodup ∧ ∀ fd, fd ∈ fds ↔ t fd = none ∧ again S (host ++ 58 :: port) t n fd ≠ none := by
  have more : ∀ (t : Table Addr) fd d, (∃ N, ∀ fd, N ≤ fd → t fd = none) → ∃ N, ∀ x, N ≤ x → t.put fd d x = none := by
    rintro t fd d ⟨N, h⟩
    refine ⟨max N (fd + 1), fun x hx => ?_⟩
    simp only [Table.put]
    rw [if_neg (by omega)]
    exact h x (by omega)
  have hl : ∀ t : Table Addr, (∃ N, ∀ fd, N ≤ fd → t fd = none) → ∃ fd, t fd = none ∧ netListen S (host ++ 58 :: port) t = (none, t.put fd (some ⟨.raw, true⟩)) := by
    intro t ⟨N, hN⟩
    obtain ⟨fd, hfd⟩ := Option.isSome_iff_exists.mp (hsome t ⟨N, hN N (Nat.le_refl _)⟩)
    refine ⟨fd, hS.socket _ _ _ hfd, ?_⟩
    unfold netListen
    rcases split_text (host ++ 58 :: port) with ⟨host', port', h1, h2, h3⟩ | ⟨h1, _⟩
    · have hs : Net.splitHostAndPort (host ++ 58 :: port) = some (host, port) := by
        unfold Net.splitHostAndPort
        have : (host ++ 58 :: port).takeWhile (· != 58) = host := by
          rw [List.takeWhile_append_of_pos (by intro x hx; simp; rintro rfl; exact h hx)]
          simp
        simp [this]
      rw [hs]
      simp [hfd, hb]
    · simp at h1
  refine ⟨by obtain ⟨_, _, e⟩ := hl t hfin; rw [e], ?_⟩
  induction n generalizing t with
  | zero => exact ⟨[], rfl, .nil, fun fd => by simp [again]⟩
  | succ n ih =>
    obtain ⟨fd, h1, h2⟩ := hl t hfin
    obtain ⟨fds, k1, k2, k3⟩ := ih (t.put fd (some ⟨.raw, true⟩)) (more _ _ _ hfin)
    have hnot : fd ∉ fds := fun hm => by
      have := ((k3 fd).mp hm).1
      rw [put_same] at this
      cases this
    refine ⟨fd :: fds, by simp [k1], List.nodup_cons.mpr ⟨hnot, k2⟩, fun x => ?_⟩
    have keep : ∀ (n : Nat) (t : Table Addr) (x : Nat), (∃ N, ∀ fd, N ≤ fd → t fd = none) → t x ≠ none → again S (host ++ 58 :: port) t n x ≠ none := by
      intro n
      induction n with
      | zero => intro t x _ hx; exact hx
      | succ n ih =>
        intro t x hf hx
        obtain ⟨fd, h1, h2⟩ := hl t hf
        rw [again, h2]
        refine ih _ x (more _ _ _ hf) ?_
        simp only [Table.put]
        split
        · simp
        · exact hx
    rw [again, h2, List.mem_cons]
    constructor
    · rintro (rfl | hx)
      · exact ⟨h1, keep _ _ _ (more _ _ _ hfin) (by dsimp only; rw [put_same]; simp)⟩
      · obtain ⟨g1, g2⟩ := (k3 x).mp hx
        refine ⟨?_, g2⟩
        simp only [Table.put] at g1
        split at g1
        · cases g1
        · exact g1
    · rintro ⟨g1, g2⟩
      by_cases e : x = fd
      · exact .inl e
      · refine .inr ((k3 x).mpr ⟨?_, g2⟩)
        simp only [Table.put]
        rw [if_neg e]
        exact g1

/-- a number that is not below 2^16 is taken for another port -/
theorem C96_port_wrong : toPort (atoi "65536".toUTF8.toList) = 0 ∧ toPort (atoi "65616".toUTF8.toList) = 80 ∧ toPort (atoi "-1".toUTF8.toList) = 65535 ∧
    toPort (atoi "http".toUTF8.toList) = 0 := by decide +kernel

/-! ### cases that meet the hypotheses -/

/-- a system with two addresses, of which the second answers; descriptors from 3 on; port 80 is taken -/
def sys : System Nat :=
  { resolve := fun _ _ => some [7, 8, 9]
    socket := fun _ t => if t 3 |>.isNone then some 3 else if t 4 |>.isNone then some 4 else none
    connect := fun a => a ≥ 8
    bind := fun p => p != 80
    listen := fun _ => true
    accept := fun _ t => if t 3 |>.isNone then some 3 else if t 4 |>.isNone then some 4 else none }

theorem sys_sound : Sound sys := by
  have h : ∀ (t : Table Nat) fd, (if (t 3).isNone then some 3 else if (t 4).isNone then some 4 else none) = some fd → t fd = none := by
    intro t fd h
    split at h
    · cases h; rename_i e; exact Option.isNone_iff_eq_none.mp e
    · split at h
      · cases h; rename_i e; exact Option.isNone_iff_eq_none.mp e
      · cases h
  exact ⟨fun _ t fd h' => h t fd h', fun _ t fd h' => h t fd h'⟩

/-- the first address does not answer, its socket is closed, and the second is used -/
example : (netDial sys "h:1".toUTF8.toList fun _ => none).1 = some 3 ∧
    (netDial sys "h:1".toUTF8.toList fun _ => none).2 3 = some ⟨.connected 8, false⟩ ∧ (netDial sys "h".toUTF8.toList fun _ => none).1 = none := by
  decide +kernel

/-- a listener, a connection that comes in, both closed: none is left -/
def history : List (System Nat × Op) := [(sys, .listen ":8080".toUTF8.toList), (sys, .accept 3), (sys, .close 3), (sys, .close 4)]
theorem history_sound : ∀ o ∈ history, Sound o.1 := by
  intro o ho
  simp only [history, List.mem_cons, List.not_mem_nil, or_false] at ho
  rcases ho with rfl | rfl | rfl | rfl <;> exact sys_sound
theorem history_ok : NoFailures (fun _ => none) history :=
  ⟨fun h => absurd h.1 (by decide +kernel), id, id, id, trivial⟩
example : (performs (fun _ => none) history).1 = [.got 3, .got 4, .closed 3, .closed 4] := by decide +kernel
example (fd : Nat) : ((performs (fun _ => none) history).2 fd).isSome = false := by
  rw [C96_open_partial history_sound history_ok fd, show (performs (fun _ => none) history).1 = [.got 3, .got 4, .closed 3, .closed 4] by decide +kernel]
  simp only [isOpen]
  by_cases h3 : 3 = fd <;> by_cases h4 : 4 = fd <;> simp [h3, h4]

example : toPort (atoi (cname "8080".toUTF8.toList)) = 8080 := by decide +kernel

/-- a system that has a descriptor whenever one is not open -/
noncomputable def sysFree : System Nat :=
  { sys with socket := fun _ t => open Classical in if h : ∃ fd, t fd = none then some h.choose else none, accept := fun _ _ => none }

/-- port 80 is taken: after a thousand attempts a thousand descriptors are lost -/
example : ∃ fds : List Nat, fds.length = 1000 ∧ fds.Nodup ∧ ∀ fd, fd ∈ fds ↔ again sysFree "h:80".toUTF8.toList (fun _ => none) 1000 fd ≠ none := by
  have hS : Sound sysFree := by
    refine ⟨fun _ t fd h => ?_, fun _ _ _ h => by cases h⟩
    simp only [sysFree] at h
    split at h
    · rename_i e; cases h; exact e.choose_spec
    · cases h
  obtain ⟨-, fds, h1, h2, h3⟩ := C96_listen_lost_wrong hS (fun t h => by simp [sysFree, h]) (host := [104]) (port := [56, 48]) (by decide) (by decide +kernel) 1000 (fun _ => none)
    ⟨0, fun _ _ => rfl⟩
  have e : "h:80".toUTF8.toList = [104] ++ 58 :: [56, 48] := by decide +kernel
  exact ⟨fds, h1, h2, fun fd => by rw [e, h3]; simp⟩

end Cora.Sockets
