import Verif.Model.Parallel
import Mathlib.Data.List.Perm.Subperm
/-
C75: mailboxes. C76: names of mailboxes.
-/
open Spec.Mailbox
namespace Cora.Parallel

variable {α : Type} [DecidableEq α] {fls extra : α}

theorem sent_append (a b : List (Act α)) : sent (a ++ b) = sent a ++ sent b := by
  induction a with
  | nil => rfl
  | cons x a ih => cases x <;> simp [sent, ih]

theorem run_append (a : List (Act α)) (x : Act α) : run fls extra (a ++ [x]) = step fls extra (run fls extra a) x := by
  simp [run]

/-- induction from the last action -/
theorem act_induct {P : List (Act α) → Prop} (h0 : P []) (h1 : ∀ a x, P a → P (a ++ [x])) (l : List (Act α)) : P l := by
  have : ∀ r : List (Act α), P r.reverse := by
    intro r
    induction r with
    | nil => exact h0
    | cons x r ih => rw [List.reverse_cons]; exact h1 _ _ ih
  simpa using this l.reverse

/-- as long as no receiver waits, messages arrive in the order in which they were sent, each once, and those that did not
arrive yet are in the mailbox (no message is `false`) -/
theorem C75_fifo_partial (acts : List (Act α)) (hw : ∀ r, Act.wait r ∉ acts) (hf : fls ∉ sent acts) :
    ((run fls extra acts).got.map (·.2)).reverse ++ (run fls extra acts).data = sent acts := by
  suffices h : ((run fls extra acts).got.map (·.2)).reverse ++ (run fls extra acts).data = sent acts ∧
      (run fls extra acts).blocked = [] from h.1
  induction acts using act_induct with
  | h0 => exact ⟨rfl, rfl⟩
  | h1 a x ih =>
    rw [sent_append] at hf
    obtain ⟨ih1, ih2⟩ := ih (fun r h => hw r (List.mem_append_left _ h)) (fun h => hf (List.mem_append_left _ h))
    rw [run_append, sent_append, ← ih1]
    generalize run fls extra a = s at ih1 ih2
    cases x with
    | wait r => exact absurd (List.mem_append_right _ List.mem_cons_self) (hw r)
    | send v => simp [step, send, ih2, sent]
    | look r =>
      simp only [step, look, sent, List.append_nil]
      cases hd : s.data with
      | nil => simp [ih2]
      | cons v d =>
        have hv : v ≠ fls := by
          rintro rfl
          refine hf (List.mem_append_left _ ?_)
          rw [← ih1, hd]
          simp
        simp [hv, ih2]

/-- what receivers get by looking -/
def looked (extra : α) (s : St α) : List α := (s.got.map (·.2)).reverse.filter fun v => decide (v ≠ extra)

/-- whatever the schedule: the messages that receivers got and those in the mailbox, in this order, are among the messages
sent, in the order in which they were sent; so none is received twice and none overtakes another. (What receivers that had to
wait get is `extra`, no message.) -/
theorem C75_once_partial (acts : List (Act α)) :
    List.Sublist (looked extra (run fls extra acts) ++ (run fls extra acts).data) (sent acts) := by
  induction acts using act_induct with
  | h0 => exact List.Sublist.refl _
  | h1 a x ih =>
    rw [run_append, sent_append]
    generalize run fls extra a = s at ih
    cases x with
    | wait r =>
      have : looked extra (step fls extra s (.wait r)) = looked extra s ∧ (step fls extra s (.wait r)).data = s.data := by
        simp only [step, wait]
        split
        · rw [if_neg (by omega)]
          exact ⟨rfl, rfl⟩
        · exact ⟨rfl, rfl⟩
      rw [this.1, this.2]
      simpa [sent] using ih
    | send v =>
      simp only [step, send, sent]
      cases hb : s.blocked with
      | nil => simpa [looked, ← List.append_assoc] using ih.append (List.Sublist.refl [v])
      | cons r rs =>
        have : looked extra { s with blocked := rs, got := (r, extra) :: s.got } = looked extra s := by simp [looked]
        rw [this]
        exact ih.trans (List.sublist_append_left _ _)
    | look r =>
      simp only [step, look, sent, List.append_nil]
      cases hd : s.data with
      | nil => simpa [looked, hd] using ih
      | cons v d =>
        rw [hd] at ih
        by_cases hv : v = fls
        · simp only [hv, if_true]
          exact (List.Sublist.append (List.Sublist.refl _) (List.sublist_cons_self _ _)).trans ih
        · simp only [hv, if_false]
          by_cases hx : v = extra
          · have : looked extra { s with data := d, got := (r, v) :: s.got } = looked extra s := by simp [looked, hx]
            rw [this]
            exact (List.Sublist.append (List.Sublist.refl _) (List.sublist_cons_self _ _)).trans ih
          · have : looked extra { s with data := d, got := (r, v) :: s.got } = looked extra s ++ [v] := by simp [looked, hx]
            rw [this, List.append_assoc]
            exact ih

/-- a message sent to a receiver that waits is lost: the receiver wakes up, with a value that does not depend on the message,
and the message is nowhere -/
theorem C75_woken_wrong (acts : List (Act α)) (r : Nat) (rs : List Nat) (h : (run fls extra acts).blocked = r :: rs) (v : α) :
    (run fls extra (acts ++ [.send v])).got = (r, extra) :: (run fls extra acts).got ∧
      (run fls extra (acts ++ [.send v])).data = (run fls extra acts).data := by
  rw [run_append]
  simp [step, send, h]

example : (run 0 7 [.look 1, .wait 1]).blocked = [1] := by decide

/-- the wakeup is lost when a message is sent between the look of a receiver and its getting in line: the receiver waits
although there is a message, and whatever happens after, until somebody sends, it goes on waiting -/
theorem C75_lost_wakeup_wrong (v : α) (hv : v ≠ fls) :
    let acts : List (Act α) := [.look 1, .send v, .wait 1]
    (run fls extra acts).data = [v] ∧ (run fls extra acts).blocked = [1] ∧
      ∀ more : List (Act α), sent more = [] → 1 ∈ (run fls extra (acts ++ more)).blocked ∧
        ∀ x, (1, x) ∈ (run fls extra (acts ++ more)).got → Act.look 1 ∈ more := by
  have h0 : run fls extra [Act.look 1, .send v, .wait 1] = ⟨[v], [1], [], []⟩ := by
    simp [run, step, look, send, wait]
  refine ⟨by rw [h0], by rw [h0], fun more => ?_⟩
  induction more using act_induct with
  | h0 => intro _; rw [List.append_nil, h0]; simp
  | h1 a x ih =>
    intro hs
    rw [sent_append] at hs
    obtain ⟨ih1, ih2⟩ := ih (List.append_eq_nil_iff.mp hs).1
    rw [← List.append_assoc, run_append]
    generalize run fls extra ([Act.look 1, .send v, .wait 1] ++ a) = s at ih1 ih2
    cases x with
    | send w => simp [sent] at hs
    | look r =>
      simp only [step, look]
      cases hd : s.data with
      | nil => exact ⟨ih1, fun x hx => List.mem_append_left _ (ih2 x hx)⟩
      | cons u d =>
        by_cases hu : u = fls
        · simp only [hu, if_true]
          exact ⟨ih1, fun x hx => List.mem_append_left _ (ih2 x hx)⟩
        · simp only [hu, if_false]
          refine ⟨ih1, fun x hx => ?_⟩
          rcases List.mem_cons.mp hx with e | hx
          · cases e; simp
          · exact List.mem_append_left _ (ih2 x hx)
    | wait r =>
      simp only [step, wait]
      split
      · rw [if_neg (by omega)]
        exact ⟨List.mem_append_left _ ih1, fun x hx => List.mem_append_left _ (ih2 x hx)⟩
      · exact ⟨ih1, fun x hx => List.mem_append_left _ (ih2 x hx)⟩

/-- the message `false` is taken out of the mailbox and given to nobody -/
theorem C75_false_wrong : let s := run fls extra [.send fls, .look 1]; s.data = [] ∧ s.got = [] := by
  simp [run, step, look, send]

/-- three messages and two receivers -/
example : (run 0 7 [.send 1, .look 5, .send 2, .send 3, .look 6]).got = [(6, 2), (5, 1)] := by decide

/-! ### names -/

/-- the slots tried for a name -/
def path (name : List UInt8) (i : Nat) : Nat := ((fnv1aHash name % 256).toNat + i) % 256

theorem hash_lt (name : List UInt8) : (fnv1aHash name % 256).toNat < 256 := by
  rw [UInt64.toNat_mod]
  exact Nat.mod_lt _ (by decide)

variable {μ : Type}

theorem path_succ (name : List UInt8) (i : Nat) : (path name i + 1) % 256 = path name (i + 1) := by
  simp only [path]; omega

theorem path_start (name : List UInt8) (i : Nat) (hi : i < 256) :
    path name i = ((fnv1aHash name % 256).toNat + 256 - 1) % 256 ↔ i = 255 := by
  have := hash_lt name
  simp only [path]; omega

theorem path_inj (name : List UInt8) (i j : Nat) (hi : i < 256) (hj : j < 256) (h : path name i = path name j) : i = j := by
  simp only [path] at h; omega

/-- the search for a free slot -/
theorem findFree_spec (s : Slots μ) (name : List UInt8) : ∀ n i, i + n = 256 → (∀ j < i, (s (path name j)).isSome) →
    i < 256 → ∃ k, k < 256 ∧ findFree s (((fnv1aHash name % 256).toNat + 256 - 1) % 256) n (path name i) = path name k ∧
      (∀ j < k, (s (path name j)).isSome) ∧ (k = 255 ∨ s (path name k) = none) := by
  intro n
  induction n with
  | zero => intro i h; omega
  | succ n ih =>
    intro i hi hall hlt
    simp only [findFree]
    split
    · rename_i hc
      have h255 : i ≠ 255 := fun e => hc.2 ((path_start name i hlt).mpr e)
      rw [path_succ]
      exact ih (i + 1) (by omega) (fun j hj => by
        rcases Nat.lt_succ_iff_lt_or_eq.mp hj with h | rfl
        · exact hall j h
        · exact hc.1) (by omega)
    · rename_i hc
      refine ⟨i, hlt, rfl, hall, ?_⟩
      by_cases h : i = 255
      · exact .inl h
      · right
        have := fun e => h ((path_start name i hlt).mp e)
        cases hs : s (path name i) with
        | none => rfl
        | some e => exact absurd ⟨by rw [hs]; rfl, this⟩ hc

theorem path_zero (name : List UInt8) : path name 0 = (fnv1aHash name % 256).toNat := by
  have := hash_lt name
  simp only [path]; omega

theorem publish_spec (s : Slots μ) (name : List UInt8) (m : μ) :
    (publish name m s = none ∧ ∀ j < 255, (s (path name j)).isSome) ∨
    ∃ k < 255, s (path name k) = none ∧ (∀ j < k, (s (path name j)).isSome) ∧
      publish name m s = some fun i => if i = path name k then some (name, m) else s i := by
  obtain ⟨k, hk, h1, h2, h3⟩ := findFree_spec s name 256 0 rfl (fun j hj => absurd hj (Nat.not_lt_zero j)) (by decide)
  rw [path_zero] at h1
  simp only [publish, h1, path_start name k hk]
  by_cases h : k = 255
  · left
    rw [if_pos h]
    exact ⟨rfl, by rw [← h]; exact h2⟩
  · right
    exact ⟨k, by omega, h3.resolve_left h, h2, if_neg h⟩

/-- the slots after a history of publications -/
def Good (hist : List (List UInt8 × μ)) (s : Slots μ) : Prop :=
  ∀ name, match firstPublished name hist with
    | some m => ∃ i < 255, s (path name i) = some (name, m) ∧ ∀ j < i, ∃ e, s (path name j) = some e ∧ e.1 ≠ name
    | none => ∀ idx e, s idx = some e → e.1 ≠ name

theorem firstPublished_append (name : List UInt8) (a : List (List UInt8 × μ)) (n : List UInt8) (m : μ) :
    firstPublished name (a ++ [(n, m)]) =
      match firstPublished name a with
      | some x => some x
      | none => if n = name then some m else none := by
  induction a with
  | nil => simp [firstPublished]
  | cons p a ih =>
    simp only [List.cons_append, firstPublished]
    split
    · rfl
    · exact ih

theorem publish_good {hist : List (List UInt8 × μ)} {s s' : Slots μ} {name : List UInt8} {m : μ} (h : Good hist s)
    (hp : publish name m s = some s') : Good (hist ++ [(name, m)]) s' := by
  rcases publish_spec s name m with ⟨e, -⟩ | ⟨k, hk, hfree, hfull, e⟩
  · rw [e] at hp; cases hp
  rw [e] at hp
  cases hp
  have keep : ∀ i x, s i = some x → (if i = path name k then some (name, m) else s i) = some x := by
    intro i x hx
    rw [if_neg (by rintro rfl; rw [hfree] at hx; cases hx)]
    exact hx
  intro n
  have hn := h n
  rw [firstPublished_append]
  cases hf : firstPublished n hist with
  | some x =>
    rw [hf] at hn
    obtain ⟨i, hi, h1, h2⟩ := hn
    exact ⟨i, hi, keep _ _ h1, fun j hj => by
      obtain ⟨e, he, hne⟩ := h2 j hj
      exact ⟨e, keep _ _ he, hne⟩⟩
  | none =>
    rw [hf] at hn
    by_cases hnn : name = n
    · subst hnn
      simp only [if_true]
      refine ⟨k, hk, if_pos rfl, fun j hj => ?_⟩
      obtain ⟨e, he⟩ := Option.isSome_iff_exists.mp (hfull j hj)
      exact ⟨e, keep _ _ he, hn _ _ he⟩
    · simp only [if_neg hnn]
      intro idx e he
      split at he
      · cases he; exact hnn
      · exact hn _ _ he

theorem publishAll_good {l hist : List (List UInt8 × μ)} {s s' : Slots μ} (h : Good hist s)
    (hp : publishAll l s = some s') : Good (hist ++ l) s' := by
  induction l generalizing hist s with
  | nil => cases hp; simpa using h
  | cons p l ih =>
    simp only [publishAll, Option.bind_eq_bind, Option.bind_eq_some_iff] at hp
    obtain ⟨s1, h1, h2⟩ := hp
    have := ih (publish_good h h1) h2
    simpa using this

theorem findName_spec (s : Slots μ) (name : List UInt8) : ∀ n i, i + n = 257 → i ≤ 256 →
    (∀ j < i, ∃ e, s (path name j) = some e ∧ e.1 ≠ name) →
    ∃ k, k ≤ 256 ∧ findName s name n (path name i) i = (path name k, k) ∧ (∀ j < k, ∃ e, s (path name j) = some e ∧ e.1 ≠ name) ∧
      (k = 256 ∨ s (path name k) = none ∨ ∃ m, s (path name k) = some (name, m)) := by
  intro n
  induction n with
  | zero => intro i h; omega
  | succ n ih =>
    intro i hi hle hall
    simp only [findName]
    cases hs : s (path name i) with
    | none => exact ⟨i, hle, by simp, hall, .inr (.inl hs)⟩
    | some e =>
      by_cases hn : e.1 = name
      · refine ⟨i, hle, by simp [hn], hall, .inr (.inr ⟨e.2, by rw [hs, ← hn]⟩)⟩
      · by_cases ht : i < 256
        · rw [if_pos ⟨rfl, by simpa using hn, ht⟩, path_succ]
          exact ih (i + 1) (by omega) (by omega) fun j hj => by
            rcases Nat.lt_succ_iff_lt_or_eq.mp hj with h | rfl
            · exact hall j h
            · exact ⟨e, hs, hn⟩
        · exact ⟨i, hle, by simp [ht], hall, .inl (by omega)⟩

/-- after any publications that succeeded, a name stands for the mailbox first published under it, and a name under which none
was published stands for nothing, whatever the names and their hash values -/
theorem C76_resolve (l : List (List UInt8 × μ)) (s : Slots μ) (h : publishAll l (fun _ => none) = some s) (name : List UInt8) :
    resolve name s = some (firstPublished name l) := by
  have hg : Good l s := by
    have h0 : Good ([] : List (List UInt8 × μ)) (fun _ => none) := fun n => by simp [firstPublished]
    simpa using publishAll_good h0 h
  have hn := hg name
  obtain ⟨k, hk, h1, h2, h3⟩ := findName_spec s name 257 0 rfl (by decide) (fun j hj => absurd hj (Nat.not_lt_zero j))
  rw [path_zero] at h1
  simp only [resolve, h1]
  cases hf : firstPublished name l with
  | none =>
    rw [hf] at hn
    rcases h3 with rfl | h3 | ⟨m, h3⟩
    · split
      · rfl
      · simp
    · rw [h3]
    · exact absurd rfl (hn _ _ h3)
  | some m =>
    rw [hf] at hn
    obtain ⟨i, hi, h4, h5⟩ := hn
    have hki : k = i := by
      rcases Nat.lt_trichotomy k i with h | h | h
      · obtain ⟨e, he, hne⟩ := h5 k h
        rcases h3 with h3 | h3 | ⟨m', h3⟩
        · omega
        · rw [h3] at he; cases he
        · rw [h3] at he; cases he; exact absurd rfl hne
      · exact h
      · obtain ⟨e, he, hne⟩ := h2 i h
        rw [h4] at he; cases he; exact absurd rfl hne
    subst hki
    rw [h4]
    simp [show k ≠ 256 by omega]

/-- how many slots are taken -/
def taken (s : Slots μ) : Nat := (List.range 256).countP fun i => (s i).isSome

theorem taken_publish {s s' : Slots μ} {name : List UInt8} {m : μ} (h : publish name m s = some s') : taken s' ≤ taken s + 1 := by
  rcases publish_spec s name m with ⟨e, -⟩ | ⟨k, -, -, -, e⟩
  · rw [e] at h; cases h
  rw [e] at h
  cases h
  have : ∀ l : List Nat, l.Nodup → l.countP (fun i => (if i = path name k then some (name, m) else s i).isSome) ≤
      l.countP (fun i => (s i).isSome) + 1 := by
    intro l
    induction l with
    | nil => intro _; simp
    | cons a l ih =>
      intro hl
      have hl := List.nodup_cons.mp hl
      simp only [List.countP_cons]
      by_cases ha : a = path name k
      · have hsame : l.countP (fun i => (if i = path name k then some (name, m) else s i).isSome) =
            l.countP (fun i => (s i).isSome) := by
          apply List.countP_congr
          intro i hi
          rw [if_neg (by rintro rfl; exact hl.1 (ha ▸ hi))]
        rw [hsame]
        split <;> split <;> omega
      · have := ih hl.2
        rw [if_neg ha]
        omega
  exact this _ List.nodup_range

theorem publish_room {s : Slots μ} (name : List UInt8) (m : μ) (h : taken s < 255) : (publish name m s).isSome := by
  rcases publish_spec s name m with ⟨-, hall⟩ | ⟨k, -, -, -, e⟩
  · exfalso
    have hn : ((List.range 255).map (path name)).Nodup := by
      rw [List.nodup_iff_pairwise_ne, List.pairwise_map]
      refine List.Pairwise.imp_of_mem (fun {i j} hi hj hne e => hne ?_) (List.nodup_range (n := 255))
      exact path_inj name i j (by have := List.mem_range.mp hi; omega) (by have := List.mem_range.mp hj; omega) e
    have hsub : (List.range 255).map (path name) ⊆ (List.range 256).filter fun i => (s i).isSome := by
      intro i hi
      obtain ⟨j, hj, rfl⟩ := List.mem_map.mp hi
      refine List.mem_filter.mpr ⟨List.mem_range.mpr (Nat.mod_lt _ (by decide)), hall j (List.mem_range.mp hj)⟩
    have := (List.subperm_of_subset hn hsub).length_le
    rw [← List.countP_eq_length_filter] at this
    simp only [List.length_map, List.length_range] at this
    unfold taken at h
    omega
  · rw [e]; rfl

/-- up to 255 publications succeed, whatever the names -/
theorem C76_room (l : List (List UInt8 × μ)) (h : l.length ≤ 255) : (publishAll l (fun _ => none)).isSome := by
  have : ∀ (l : List (List UInt8 × μ)) (s : Slots μ), taken s + l.length ≤ 255 → (publishAll l s).isSome := by
    intro l
    induction l with
    | nil => intro s _; rfl
    | cons p l ih =>
      intro s hs
      simp only [List.length_cons] at hs
      obtain ⟨s', h'⟩ := Option.isSome_iff_exists.mp (publish_room p.1 p.2 (s := s) (by omega))
      have ht := taken_publish h'
      simp only [publishAll, h', Option.bind_eq_bind, Option.bind_some]
      exact ih s' (by omega)
  exact this l _ (by simpa [taken] using h)

/-- two names, one of them published twice -/
example : firstPublished [98] [([97], 1), ([98], 2), ([98], 3)] = some 2 := by decide

end Cora.Parallel
