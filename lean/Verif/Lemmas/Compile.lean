import Verif.Model.Compile
import Verif.Spec.Compile
import Verif.Lemmas.Lang
/-
Facts about `parse`, `free-vars`, `union` and `diff`.
-/
open Spec.Lang
namespace Cora.Compile

theorem mem_union {x : Sym} : ∀ {a b : List Sym}, x ∈ union a b ↔ x ∈ a ∨ x ∈ b
  | [], b => by simp [union]
  | y :: r, b => by
    unfold union
    split
    · rename_i h
      rw [mem_union, List.mem_cons]
      constructor
      · rintro (h | h) <;> simp [h]
      · rintro ((rfl | h) | h)
        · exact .inr h
        · exact .inl h
        · exact .inr h
    · rw [List.mem_cons, mem_union, List.mem_cons, or_assoc]

theorem mem_diff {x : Sym} : ∀ {a b : List Sym}, x ∈ diff a b ↔ x ∈ a ∧ x ∉ b
  | [], b => by simp [diff]
  | y :: r, b => by
    unfold diff
    split
    · rename_i h
      rw [mem_diff, List.mem_cons]
      constructor
      · rintro ⟨h1, h2⟩; exact ⟨.inr h1, h2⟩
      · rintro ⟨rfl | h1, h2⟩
        · exact absurd h h2
        · exact ⟨h1, h2⟩
    · rename_i h
      rw [List.mem_cons, mem_diff, List.mem_cons]
      constructor
      · rintro (rfl | ⟨h1, h2⟩)
        · exact ⟨.inl rfl, h⟩
        · exact ⟨.inr h1, h2⟩
      · rintro ⟨rfl | h1, h2⟩
        · exact .inl rfl
        · exact .inr ⟨h1, h2⟩

theorem nodup_union : ∀ {a b : List Sym}, a.Nodup → b.Nodup → (union a b).Nodup
  | [], b, _, hb => hb
  | y :: r, b, ha, hb => by
    unfold union
    rw [List.nodup_cons] at ha
    split
    · exact nodup_union ha.2 hb
    · rename_i h
      rw [List.nodup_cons, mem_union]
      exact ⟨by simp [ha.1, h], nodup_union ha.2 hb⟩

theorem nodup_diff : ∀ {a b : List Sym}, a.Nodup → (diff a b).Nodup
  | [], b, _ => by simp [diff]
  | y :: r, b, ha => by
    unfold diff
    rw [List.nodup_cons] at ha
    split
    · exact nodup_diff ha.2
    · rename_i h
      rw [List.nodup_cons, mem_diff]
      exact ⟨fun h' => ha.1 h'.1, nodup_diff ha.2⟩

mutual
theorem free_nodup : ∀ e : Exp1, e.free.Nodup
  | .const _ => by simp [Exp1.free]
  | .global _ => by simp [Exp1.free]
  | .loc _ => by simp [Exp1.free]
  | .lam ps b => by rw [Exp1.free]; exact nodup_diff (free_nodup b)
  | .ite a b c => by
    rw [Exp1.free]
    exact nodup_union (nodup_union (nodup_union .nil (free_nodup a)) (free_nodup b)) (free_nodup c)
  | .seq a b => by rw [Exp1.free]; exact nodup_union (nodup_union .nil (free_nodup a)) (free_nodup b)
  | .bind x e b => by rw [Exp1.free]; exact nodup_union (free_nodup e) (nodup_diff (free_nodup b))
  | .prim p args => by rw [Exp1.free]; exact frees_nodup args .nil
  | .app f args => by rw [Exp1.free]; exact frees_nodup args (nodup_union .nil (free_nodup f))
theorem frees_nodup : ∀ (es : List Exp1) {acc : List Sym}, acc.Nodup → (Exp1.frees acc es).Nodup
  | [], _, h => by rwa [Exp1.frees]
  | e :: es, _, h => by rw [Exp1.frees]; exact frees_nodup es (nodup_union h (free_nodup e))
end

theorem mem_frees_acc {x : Sym} : ∀ {es : List Exp1} {acc : List Sym},
    x ∈ Exp1.frees acc es ↔ x ∈ acc ∨ x ∈ Exp1.frees [] es
  | [], acc => by simp [Exp1.frees]
  | e :: es, acc => by
    rw [Exp1.frees, Exp1.frees, mem_frees_acc, mem_frees_acc (acc := union [] e.free)]
    simp only [mem_union, List.not_mem_nil, false_or, or_assoc]

theorem mem_frees_append {x : Sym} : ∀ {a b : List Exp1},
    x ∈ Exp1.frees [] (a ++ b) ↔ x ∈ Exp1.frees [] a ∨ x ∈ Exp1.frees [] b
  | [], b => by simp [Exp1.frees]
  | e :: es, b => by
    rw [List.cons_append, Exp1.frees, Exp1.frees, mem_frees_acc, mem_frees_append,
      mem_frees_acc (acc := union [] e.free)]
    simp only [or_assoc]

theorem mem_frees_locs {x : Sym} : ∀ {l : List Sym}, x ∈ Exp1.frees [] (l.map .loc) ↔ x ∈ l
  | [] => by simp [Exp1.frees]
  | y :: r => by
    rw [List.map_cons, Exp1.frees, mem_frees_acc, mem_frees_locs, mem_union]
    simp [Exp1.free]

/-! ### names in scope -/

/-- the names of a form and of its scope cause no confusion: generated symbols are older than `k`, and no local
variable is named like a primitive -/
structure Fine (k : Nat) (env : List Sym) (syms binders : List Sym) : Prop where
  below : Below k syms
  belowEnv : Below k env
  prims : NoPrims binders
  primsEnv : NoPrims env

theorem below_mono {k k' : Nat} {xs : List Sym} (h : Below k xs) (hk : k ≤ k') : Below k' xs :=
  fun n hn => Nat.lt_of_lt_of_le (h n hn) hk

theorem below_sub {k : Nat} {xs ys : List Sym} (h : Below k xs) (hs : ∀ x ∈ ys, x ∈ xs) : Below k ys :=
  fun n hn => h n (hs _ hn)

theorem below_append {k : Nat} {xs ys : List Sym} : Below k (xs ++ ys) ↔ Below k xs ∧ Below k ys := by
  simp only [Below, List.mem_append]
  constructor
  · intro h; exact ⟨fun n hn => h n (.inl hn), fun n hn => h n (.inr hn)⟩
  · rintro ⟨h1, h2⟩ n (hn | hn)
    · exact h1 n hn
    · exact h2 n hn

theorem below_cons {k : Nat} {x : Sym} {ys : List Sym} : Below k (x :: ys) ↔ Below k [x] ∧ Below k ys :=
  below_append (xs := [x])

theorem noPrims_append {xs ys : List Sym} : NoPrims (xs ++ ys) ↔ NoPrims xs ∧ NoPrims ys := by
  simp only [NoPrims, List.mem_append]
  constructor
  · intro h; exact ⟨fun n hn => h n (.inl hn), fun n hn => h n (.inr hn)⟩
  · rintro ⟨h1, h2⟩ n (hn | hn)
    · exact h1 n hn
    · exact h2 n hn

theorem noPrims_cons {x : Sym} {ys : List Sym} : NoPrims (x :: ys) ↔ x.isPrim = false ∧ NoPrims ys := by
  simp [NoPrims]

theorem below_gen {k n : Nat} {xs : List Sym} (h : Below k xs) (hn : k ≤ n) : Sym.gen n ∉ xs :=
  fun hm => absurd (h n hm) (by omega)

theorem below_singleton {k n : Nat} (h : n < k) : Below k [.gen n] := by
  intro m hm
  simp only [List.mem_singleton, Sym.gen.injEq] at hm
  omega

mutual
theorem fv_syms : ∀ (e : Core) (x : Sym), x ∈ e.fv → x ∈ e.syms
  | .lit _, x => by simp [Core.fv]
  | .quote _, x => by simp [Core.fv]
  | .var _, x => by simp [Core.fv, Core.syms]
  | .lam ps b, x => by
    simp only [Core.fv, Core.syms, List.mem_filter, List.mem_append]
    exact fun h => .inr (fv_syms b x h.1)
  | .ite a b c, x => by
    simp only [Core.fv, Core.syms, List.mem_append]
    rintro ((h | h) | h)
    · exact .inl (.inl (fv_syms a x h))
    · exact .inl (.inr (fv_syms b x h))
    · exact .inr (fv_syms c x h)
  | .seq a b, x => by
    simp only [Core.fv, Core.syms, List.mem_append]
    rintro (h | h)
    · exact .inl (fv_syms a x h)
    · exact .inr (fv_syms b x h)
  | .bind y e b, x => by
    simp only [Core.fv, Core.syms, List.mem_append, List.mem_cons, List.mem_filter]
    rintro (h | h)
    · exact .inl (.inr (fv_syms e x h))
    · exact .inr (fv_syms b x h.1)
  | .app f args, x => by
    simp only [Core.fv, Core.syms, List.mem_append]
    rintro (h | h)
    · exact .inl (fv_syms f x h)
    · exact .inr (fvs_symss args x h)
theorem fvs_symss : ∀ (es : List Core) (x : Sym), x ∈ Core.fvs es → x ∈ Core.symss es
  | [], x => by simp [Core.fvs]
  | e :: es, x => by
    simp only [Core.fvs, Core.symss, List.mem_append]
    rintro (h | h)
    · exact .inl (fv_syms e x h)
    · exact .inr (fvs_symss es x h)
end

/-! ### the counter and temporary names -/

theorem tempList_snd : ∀ (n : Nat) (res : List Sym) (k : Nat), (tempList n res k).2 = k + n
  | 0, _, _ => rfl
  | n + 1, res, k => by rw [tempList, tempList_snd]; omega

theorem tempList_mem : ∀ (n : Nat) (res : List Sym) (k : Nat) (x : Sym),
    x ∈ (tempList n res k).1 ↔ x ∈ res ∨ ∃ i, k ≤ i ∧ i < k + n ∧ x = .gen i
  | 0, res, k, x => by simp [tempList]; intros; omega
  | n + 1, res, k, x => by
    rw [tempList, tempList_mem, List.mem_cons]
    constructor
    · rintro ((rfl | h) | ⟨i, h1, h2, rfl⟩)
      · exact .inr ⟨k, by omega, by omega, rfl⟩
      · exact .inl h
      · exact .inr ⟨i, by omega, by omega, rfl⟩
    · rintro (h | ⟨i, h1, h2, rfl⟩)
      · exact .inl (.inr h)
      · by_cases hi : i = k
        · exact .inl (.inl (by rw [hi]))
        · exact .inr ⟨i, by omega, by omega, rfl⟩

theorem tempList_length : ∀ (n : Nat) (res : List Sym) (k : Nat), (tempList n res k).1.length = res.length + n
  | 0, _, _ => rfl
  | n + 1, res, k => by rw [tempList, tempList_length, List.length_cons]; omega

/-! ### inversion of `parse` -/

section
variable {env : List Sym} {k k' : Nat} {e1 : Exp1}

theorem parse_lam {ps : List Sym} {b : Core} (h : parse env (.lam ps b) k = some (e1, k')) :
    ∃ b', parse (ps ++ env) b k = some (b', k') ∧ e1 = .lam ps b' := by
  simp only [parse, Option.bind_eq_bind, Option.bind_eq_some_iff] at h
  obtain ⟨⟨b', k1⟩, hb, h⟩ := h
  simp only [Option.some.injEq, Prod.mk.injEq] at h
  obtain ⟨rfl, rfl⟩ := h
  exact ⟨b', hb, rfl⟩

theorem parse_ite {a b c : Core} (h : parse env (.ite a b c) k = some (e1, k')) :
    (isIf a = true ∧ ∃ b' k1 c' k2 a', parse (.gen (k + 1) :: env) b (k + 2) = some (b', k1) ∧
      parse (.gen (k + 1) :: env) c k1 = some (c', k2) ∧ parse (.gen k :: env) a k2 = some (a', k') ∧
      e1 = .bind (.gen k) (.lam [.gen (k + 1)] (.ite (.loc (.gen (k + 1))) b' c')) (.app (.loc (.gen k)) [a'])) ∨
    (isIf a = false ∧ ∃ a' k1 b' k2 c', parse env a k = some (a', k1) ∧ parse env b k1 = some (b', k2) ∧
      parse env c k2 = some (c', k') ∧ e1 = .ite a' b' c') := by
  rw [parse] at h
  split at h
  · rename_i hi
    simp only [Option.bind_eq_bind, Option.bind_eq_some_iff] at h
    obtain ⟨⟨b', k1⟩, hb, ⟨c', k2⟩, hc, ⟨a', k3⟩, ha, h⟩ := h
    simp only [Option.some.injEq, Prod.mk.injEq] at h
    obtain ⟨rfl, rfl⟩ := h
    exact .inl ⟨hi, b', k1, c', k2, a', hb, hc, ha, rfl⟩
  · rename_i hi
    simp only [Option.bind_eq_bind, Option.bind_eq_some_iff] at h
    obtain ⟨⟨a', k1⟩, ha, ⟨b', k2⟩, hb, ⟨c', k3⟩, hc, h⟩ := h
    simp only [Option.some.injEq, Prod.mk.injEq] at h
    obtain ⟨rfl, rfl⟩ := h
    exact .inr ⟨by simpa using hi, a', k1, b', k2, c', ha, hb, hc, rfl⟩

theorem parse_seq {a b : Core} (h : parse env (.seq a b) k = some (e1, k')) :
    ∃ a' k1 b', parse env a k = some (a', k1) ∧ parse env b k1 = some (b', k') ∧ e1 = .seq a' b' := by
  simp only [parse, Option.bind_eq_bind, Option.bind_eq_some_iff] at h
  obtain ⟨⟨a', k1⟩, ha, ⟨b', k2⟩, hb, h⟩ := h
  simp only [Option.some.injEq, Prod.mk.injEq] at h
  obtain ⟨rfl, rfl⟩ := h
  exact ⟨a', k1, b', ha, hb, rfl⟩

theorem parse_bind {x : Sym} {e b : Core} (h : parse env (.bind x e b) k = some (e1, k')) :
    ∃ e' k1 b', parse env e k = some (e', k1) ∧ parse (x :: env) b k1 = some (b', k') ∧ e1 = .bind x e' b' := by
  simp only [parse, Option.bind_eq_bind, Option.bind_eq_some_iff] at h
  obtain ⟨⟨a', k1⟩, ha, ⟨b', k2⟩, hb, h⟩ := h
  simp only [Option.some.injEq, Prod.mk.injEq] at h
  obtain ⟨rfl, rfl⟩ := h
  exact ⟨a', k1, b', ha, hb, rfl⟩

theorem parse_app {f : Core} {args : List Core} (h : parse env (.app f args) k = some (e1, k')) :
    (lamIf f args = true ∧ ∃ f' k1 args', parse env f (k + 1) = some (f', k1) ∧
      parseList (.gen k :: env) args k1 = some (args', k') ∧
      e1 = .bind (.gen k) f' (.app (.loc (.gen k)) args')) ∨
    (lamIf f args = false ∧ ∃ p n, builtin f = some (p, n) ∧
      ((n = args.length ∧ ∃ args', parseList env args k = some (args', k') ∧ e1 = .prim p args') ∨
       (args.length < n ∧ ∃ args', parseList ((tempList (n - args.length) [] k).1 ++ env) args
          (k + (n - args.length)) = some (args', k') ∧
          e1 = .lam (tempList (n - args.length) [] k).1
            (.prim p (args' ++ (tempList (n - args.length) [] k).1.map .loc))))) ∨
    (lamIf f args = false ∧ builtin f = none ∧ ∃ f' k1 args', parse env f k = some (f', k1) ∧
      parseList env args k1 = some (args', k') ∧ e1 = .app f' args') := by
  rw [parse] at h
  split at h
  · rename_i hi
    simp only [Option.bind_eq_bind, Option.bind_eq_some_iff] at h
    obtain ⟨⟨f', k1⟩, hf, ⟨args', k2⟩, ha, h⟩ := h
    simp only [Option.some.injEq, Prod.mk.injEq] at h
    obtain ⟨rfl, rfl⟩ := h
    exact .inl ⟨hi, f', k1, args', hf, ha, rfl⟩
  · rename_i hi
    split at h
    · rename_i p n hb
      refine .inr (.inl ⟨by simpa using hi, p, n, hb, ?_⟩)
      split at h
      · rename_i hn
        simp only [Option.bind_eq_bind, Option.bind_eq_some_iff] at h
        obtain ⟨⟨args', k2⟩, ha, h⟩ := h
        simp only [Option.some.injEq, Prod.mk.injEq] at h
        obtain ⟨rfl, rfl⟩ := h
        exact .inl ⟨hn, args', ha, rfl⟩
      · split at h
        · rename_i hn
          simp only [Option.bind_eq_bind, Option.bind_eq_some_iff, tempList_snd] at h
          obtain ⟨⟨args', k2⟩, ha, h⟩ := h
          simp only [Option.some.injEq, Prod.mk.injEq] at h
          obtain ⟨rfl, rfl⟩ := h
          exact .inr ⟨hn, args', ha, rfl⟩
        · exact absurd h (by simp)
    · rename_i hb
      simp only [Option.bind_eq_bind, Option.bind_eq_some_iff] at h
      obtain ⟨⟨f', k1⟩, hf, ⟨args', k2⟩, ha, h⟩ := h
      simp only [Option.some.injEq, Prod.mk.injEq] at h
      obtain ⟨rfl, rfl⟩ := h
      exact .inr (.inr ⟨by simpa using hi, hb, f', k1, args', hf, ha, rfl⟩)

theorem parseList_cons {e : Core} {es : List Core} {l : List Exp1} (h : parseList env (e :: es) k = some (l, k')) :
    ∃ e' k1 es', parse env e k = some (e', k1) ∧ parseList env es k1 = some (es', k') ∧ l = e' :: es' := by
  simp only [parseList, Option.bind_eq_bind, Option.bind_eq_some_iff] at h
  obtain ⟨⟨e', k1⟩, he, ⟨es', k2⟩, hes, h⟩ := h
  simp only [Option.some.injEq, Prod.mk.injEq] at h
  obtain ⟨rfl, rfl⟩ := h
  exact ⟨e', k1, es', he, hes, rfl⟩

theorem parseList_length : ∀ {es : List Core} {env : List Sym} {k k' : Nat} {l : List Exp1},
    parseList env es k = some (l, k') → l.length = es.length
  | [], _, _, _, _, h => by simp only [parseList, Option.some.injEq, Prod.mk.injEq] at h; simp [← h.1]
  | e :: es, _, _, _, _, h => by
    obtain ⟨e', k1, es', _, h2, rfl⟩ := parseList_cons h
    simp [parseList_length h2]
end

mutual
theorem parse_le : ∀ (e : Core) {env : List Sym} {k k' : Nat} {e1 : Exp1}, parse env e k = some (e1, k') → k ≤ k'
  | .lit _, _, _, _, _, h => by simp only [parse, Option.some.injEq, Prod.mk.injEq] at h; omega
  | .quote _, _, _, _, _, h => by simp only [parse, Option.some.injEq, Prod.mk.injEq] at h; omega
  | .var _, _, _, _, _, h => by simp only [parse, Option.some.injEq, Prod.mk.injEq] at h; omega
  | .lam ps b, _, _, _, _, h => by obtain ⟨b', h, _⟩ := parse_lam h; exact parse_le b h
  | .ite a b c, _, _, _, _, h => by
    rcases parse_ite h with ⟨_, b', k1, c', k2, a', hb, hc, ha, _⟩ | ⟨_, a', k1, b', k2, c', ha, hb, hc, _⟩ <;>
    · have := parse_le a ha
      have := parse_le b hb
      have := parse_le c hc
      omega
  | .seq a b, _, _, _, _, h => by
    obtain ⟨a', k1, b', ha, hb, _⟩ := parse_seq h
    exact Nat.le_trans (parse_le a ha) (parse_le b hb)
  | .bind x e b, _, _, _, _, h => by
    obtain ⟨a', k1, b', ha, hb, _⟩ := parse_bind h
    exact Nat.le_trans (parse_le e ha) (parse_le b hb)
  | .app f args, _, _, _, _, h => by
    rcases parse_app h with ⟨_, f', k1, args', hf, ha, _⟩ | ⟨_, p, n, _, ⟨_, args', ha, _⟩ | ⟨_, args', ha, _⟩⟩ |
      ⟨_, _, f', k1, args', hf, ha, _⟩
    · have := parse_le f hf; have := parseList_le args ha; omega
    · exact parseList_le args ha
    · have := parseList_le args ha; omega
    · exact Nat.le_trans (parse_le f hf) (parseList_le args ha)
theorem parseList_le : ∀ (es : List Core) {env : List Sym} {k k' : Nat} {l : List Exp1},
    parseList env es k = some (l, k') → k ≤ k'
  | [], _, _, _, _, h => by simp only [parseList, Option.some.injEq, Prod.mk.injEq] at h; omega
  | e :: es, _, _, _, _, h => by
    obtain ⟨e', k1, es', h1, h2, _⟩ := parseList_cons h
    exact Nat.le_trans (parse_le e h1) (parseList_le es h2)
end

theorem builtin_eq {f : Core} {p : String} {n : Nat} (h : builtin f = some (p, n)) :
    f = .var (.named p) ∧ primArity p = some n := by
  unfold builtin at h
  split at h
  · simp only [Option.map_eq_some_iff, Prod.mk.injEq] at h
    obtain ⟨m, hm, rfl, rfl⟩ := h
    exact ⟨rfl, hm⟩
  · exact absurd h (by simp)

/-- the names of a form and of its scope cause no confusion: generated symbols are older than `k`, and no local
variable is named like a primitive -/
def Fits (k : Nat) (env : List Sym) (e : Core) : Prop := Fine k env e.syms e.binders

/-- the same for several forms -/
def FitsAll (k : Nat) (env : List Sym) (es : List Core) : Prop := Fine k env (Core.symss es) (Core.binderss es)

theorem Fine.weaken {k k' : Nat} {env env' syms syms' bs bs' : List Sym} (h : Fine k env syms bs) (hk : k ≤ k')
    (hs : ∀ x ∈ syms', x ∈ syms) (hb : ∀ x ∈ bs', x ∈ bs) (he : ∀ x ∈ env', x ∈ env ∨ (x ∈ syms ∧ x ∈ bs)) :
    Fine k' env' syms' bs' where
  below := below_mono (below_sub h.below hs) hk
  belowEnv := fun n hn => by
    rcases he _ hn with h1 | h1
    · exact Nat.lt_of_lt_of_le (h.belowEnv n h1) hk
    · exact Nat.lt_of_lt_of_le (h.below n h1.1) hk
  prims := fun x hx => h.prims x (hb x hx)
  primsEnv := fun x hx => by
    rcases he x hx with h1 | h1
    · exact h.primsEnv x h1
    · exact h.prims x h1.2

theorem Fine.gen {k k' n : Nat} {env syms bs : List Sym} (h : Fine k env syms bs) (hk : k ≤ k') (hn : n < k') :
    Fine k' (.gen n :: env) syms bs where
  below := below_mono h.below hk
  belowEnv := below_cons.mpr ⟨below_singleton hn, below_mono h.belowEnv hk⟩
  prims := h.prims
  primsEnv := noPrims_cons.mpr ⟨rfl, h.primsEnv⟩

/-! ### `parse` keeps the free variables -/

theorem fits_lam {k : Nat} {env ps : List Sym} {b : Core} (h : Fits k env (.lam ps b)) : Fits k (ps ++ env) b :=
  h.weaken (Nat.le_refl k) (by simp [Core.syms]; intro x hx; exact .inr hx)
    (by simp [Core.binders]; intro x hx; exact .inr hx)
    (by simp [Core.syms, Core.binders]; intro x hx; rcases hx with hx | hx <;> simp [hx])

theorem fits_bind {k : Nat} {env : List Sym} {x : Sym} {e b : Core} (h : Fits k env (.bind x e b)) :
    Fits k env e ∧ Fits k (x :: env) b :=
  ⟨h.weaken (Nat.le_refl k) (by simp [Core.syms]; intro x hx; exact .inr (.inl hx))
      (by simp [Core.binders]; intro x hx; exact .inr (.inl hx)) fun x hx => .inl hx,
    h.weaken (Nat.le_refl k) (by simp [Core.syms]; intro x hx; exact .inr (.inr hx))
      (by simp [Core.binders]; intro x hx; exact .inr (.inr hx))
      (by simp [Core.syms, Core.binders]; intro x hx; simp [hx])⟩

theorem fits_mono {k k' : Nat} {env : List Sym} {e : Core} (h : Fits k env e) (hk : k ≤ k') : Fits k' env e :=
  h.weaken hk (fun _ hx => hx) (fun _ hx => hx) fun _ hx => .inl hx

theorem fitsAll_mono {k k' : Nat} {env : List Sym} {es : List Core} (h : FitsAll k env es) (hk : k ≤ k') :
    FitsAll k' env es :=
  h.weaken hk (fun _ hx => hx) (fun _ hx => hx) fun _ hx => .inl hx

theorem fits_ite {k : Nat} {env : List Sym} {a b c : Core} (h : Fits k env (.ite a b c)) :
    Fits k env a ∧ Fits k env b ∧ Fits k env c := by
  refine ⟨?_, ?_, ?_⟩ <;>
  exact h.weaken (Nat.le_refl k) (by simp [Core.syms]; intro x hx; simp [hx])
      (by simp [Core.binders]; intro x hx; simp [hx]) fun x hx => .inl hx

theorem fits_seq {k : Nat} {env : List Sym} {a b : Core} (h : Fits k env (.seq a b)) :
    Fits k env a ∧ Fits k env b := by
  refine ⟨?_, ?_⟩ <;>
  exact h.weaken (Nat.le_refl k) (by simp [Core.syms]; intro x hx; simp [hx])
      (by simp [Core.binders]; intro x hx; simp [hx]) fun x hx => .inl hx

theorem fits_app {k : Nat} {env : List Sym} {f : Core} {args : List Core} (h : Fits k env (.app f args)) :
    Fits k env f ∧ FitsAll k env args := by
  refine ⟨?_, ?_⟩ <;>
  exact h.weaken (Nat.le_refl k) (by simp [Core.syms]; intro x hx; simp [hx])
      (by simp [Core.binders]; intro x hx; simp [hx]) fun x hx => .inl hx

theorem fits_cons {k : Nat} {env : List Sym} {e : Core} {es : List Core} (h : FitsAll k env (e :: es)) :
    Fits k env e ∧ FitsAll k env es := by
  refine ⟨?_, ?_⟩ <;>
  exact h.weaken (Nat.le_refl k) (by simp [Core.symss]; intro x hx; simp [hx])
      (by simp [Core.binderss]; intro x hx; simp [hx]) fun x hx => .inl hx

/-- temporary names are new -/
theorem fine_temps {k n : Nat} {env syms bs : List Sym} (h : Fine k env syms bs) :
    Fine (k + n) ((tempList n [] k).1 ++ env) syms bs where
  below := below_mono h.below (by omega)
  belowEnv := below_append.mpr ⟨fun m hm => by
    rw [tempList_mem] at hm
    rcases hm with hm | ⟨i, _, h2, h3⟩
    · exact absurd hm (by simp)
    · rw [Sym.gen.injEq] at h3; omega, below_mono h.belowEnv (by omega)⟩
  prims := h.prims
  primsEnv := noPrims_append.mpr ⟨fun x hx => by
    rw [tempList_mem] at hx
    rcases hx with hm | ⟨i, _, h2, rfl⟩
    · exact absurd hm (by simp)
    · rfl, h.primsEnv⟩

theorem not_temp {k n : Nat} {xs : List Sym} (h : Below k xs) {x : Sym} (hx : x ∈ xs) :
    x ∉ (tempList n [] k).1 := by
  rw [tempList_mem]
  rintro (hm | ⟨i, h1, h2, rfl⟩)
  · exact absurd hm (by simp)
  · exact absurd (h i hx) (by omega)

theorem ne_gen {k n : Nat} {xs : List Sym} (h : Below k xs) (hn : k ≤ n) {x : Sym} (hx : x ∈ xs) : x ≠ .gen n := by
  rintro rfl; exact below_gen h hn hx

mutual
theorem parse_free : ∀ (e : Core) {env : List Sym} {k k' : Nat} {e1 : Exp1}, parse env e k = some (e1, k') →
    Fits k env e → ∀ x, x ∈ e1.free ↔ x ∈ e.fv ∧ x ∈ env
  | .lit _, _, _, _, _, h, hf => by
    simp only [parse, Option.some.injEq, Prod.mk.injEq] at h; simp [← h.1, Exp1.free, Core.fv]
  | .quote _, _, _, _, _, h, hf => by
    simp only [parse, Option.some.injEq, Prod.mk.injEq] at h; simp [← h.1, Exp1.free, Core.fv]
  | .var y, env, _, _, _, h, hf => by
    simp only [parse, Option.some.injEq, Prod.mk.injEq] at h
    intro x
    rw [← h.1]
    split
    · simp only [Exp1.free, Core.fv, List.mem_singleton]
      constructor
      · rintro rfl; exact ⟨rfl, by assumption⟩
      · exact fun h => h.1
    · simp only [Exp1.free, Core.fv, List.mem_singleton, List.not_mem_nil, false_iff]
      rintro ⟨rfl, hx⟩; contradiction
  | .lam ps b, env, k, k', _, h, hf => by
    obtain ⟨b', hb, rfl⟩ := parse_lam h
    intro x
    have := parse_free b hb (fits_lam hf) x
    simp only [Exp1.free, mem_diff, this, Core.fv, List.mem_filter, List.mem_append, decide_eq_true_eq]
    grind
  | .ite a b c, env, k, k', _, h, hf => by
    obtain ⟨fa, fb, fc⟩ := fits_ite hf
    intro x
    rcases parse_ite h with ⟨_, b', k1, c', k2, a', hb, hc, ha, rfl⟩ | ⟨_, a', k1, b', k2, c', ha, hb, hc, rfl⟩
    · have l1 := parse_le b hb
      have l2 := parse_le c hc
      have ia := parse_free a ha (Fine.gen fa (by omega) (by omega)) x
      have ib := parse_free b hb (Fine.gen fb (by omega) (by omega)) x
      have ic := parse_free c hc (Fine.gen fc (by omega) (by omega)) x
      simp only [Exp1.free, Exp1.frees, mem_union, mem_diff, ia, ib, ic, Core.fv, List.mem_append, List.mem_cons,
        List.not_mem_nil, or_false, false_or]
      constructor
      · rintro (⟨(h | h) | h, hv⟩ | ⟨h, hv⟩)
        · exact absurd h hv
        · exact ⟨.inl (.inr h.1), h.2.resolve_left hv⟩
        · exact ⟨.inr h.1, h.2.resolve_left hv⟩
        · have h := h.resolve_left hv
          exact ⟨.inl (.inl h.1), h.2.resolve_left hv⟩
      · rintro ⟨(h | h) | h, hx⟩
        · exact .inr ⟨.inr ⟨h, .inr hx⟩, ne_gen hf.belowEnv (Nat.le_refl k) hx⟩
        · exact .inl ⟨.inl (.inr ⟨h, .inr hx⟩), ne_gen hf.belowEnv (by omega) hx⟩
        · exact .inl ⟨.inr ⟨h, .inr hx⟩, ne_gen hf.belowEnv (by omega) hx⟩
    · have l1 := parse_le a ha
      have l2 := parse_le b hb
      have ia := parse_free a ha fa x
      have ib := parse_free b hb (fits_mono fb l1) x
      have ic := parse_free c hc (fits_mono fc (by omega)) x
      simp only [Exp1.free, mem_union, ia, ib, ic, Core.fv, List.mem_append, List.not_mem_nil, false_or]
      grind
  | .seq a b, env, k, k', _, h, hf => by
    obtain ⟨fa, fb⟩ := fits_seq hf
    intro x
    obtain ⟨a', k1, b', ha, hb, rfl⟩ := parse_seq h
    have ia := parse_free a ha fa x
    have ib := parse_free b hb (fits_mono fb (parse_le a ha)) x
    simp only [Exp1.free, mem_union, ia, ib, Core.fv, List.mem_append, List.not_mem_nil, false_or]
    grind
  | .bind y e b, env, k, k', _, h, hf => by
    obtain ⟨fe, fb⟩ := fits_bind hf
    intro x
    obtain ⟨e', k1, b', he, hb, rfl⟩ := parse_bind h
    have ie := parse_free e he fe x
    have ib := parse_free b hb (fits_mono fb (parse_le e he)) x
    simp only [Exp1.free, mem_union, mem_diff, ie, ib, Core.fv, List.mem_append, List.mem_filter, List.mem_cons,
      List.not_mem_nil, or_false, decide_eq_true_eq]
    grind
  | .app f args, env, k, k', _, h, hf => by
    obtain ⟨ff, fa⟩ := fits_app hf
    intro x
    rcases parse_app h with ⟨_, f', k1, args', hf', ha, rfl⟩ |
      ⟨_, p, n, hb, ⟨_, args', ha, rfl⟩ | ⟨hn, args', ha, rfl⟩⟩ | ⟨_, _, f', k1, args', hf', ha, rfl⟩
    · have l1 := parse_le f hf'
      have i1 := parse_free f hf' (fits_mono ff (by omega)) x
      have i2 := parseList_free args ha (Fine.gen fa (by omega) (by omega)) x
      simp only [Exp1.free, mem_union, mem_diff, i1, Core.fv, List.mem_append, List.mem_cons,
        List.not_mem_nil, or_false, false_or, mem_frees_acc (acc := union [] [Sym.gen k]), i2]
      have := ne_gen (x := x) hf.belowEnv (Nat.le_refl k)
      grind
    · obtain ⟨rfl, hp⟩ := builtin_eq hb
      have i2 := parseList_free args ha fa x
      simp only [Exp1.free, i2, Core.fv, List.mem_append, List.mem_singleton]
      constructor
      · exact fun h => ⟨.inr h.1, h.2⟩
      · rintro ⟨rfl | h, hx⟩
        · have := hf.primsEnv _ hx
          simp [Sym.isPrim, hp] at this
        · exact ⟨h, hx⟩
    · obtain ⟨rfl, hp⟩ := builtin_eq hb
      have i2 := parseList_free args ha (fine_temps fa) x
      simp only [Exp1.free, mem_diff, mem_frees_append, mem_frees_locs, i2, Core.fv, List.mem_append,
        List.mem_singleton]
      constructor
      · rintro ⟨h | h, ht⟩
        · exact ⟨.inr h.1, h.2.resolve_left ht⟩
        · exact absurd h ht
      · rintro ⟨rfl | h, hx⟩
        · have := hf.primsEnv _ hx
          simp [Sym.isPrim, hp] at this
        · exact ⟨.inl ⟨h, .inr hx⟩, not_temp hf.belowEnv hx⟩
    · have i1 := parse_free f hf' ff x
      have i2 := parseList_free args ha (fitsAll_mono fa (parse_le f hf')) x
      simp only [Exp1.free, mem_frees_acc (acc := union [] f'.free), mem_union, i1, i2, Core.fv, List.mem_append,
        List.not_mem_nil, false_or]
      grind
theorem parseList_free : ∀ (es : List Core) {env : List Sym} {k k' : Nat} {l : List Exp1},
    parseList env es k = some (l, k') → FitsAll k env es → ∀ x, x ∈ Exp1.frees [] l ↔ x ∈ Core.fvs es ∧ x ∈ env
  | [], _, _, _, _, h, hf => by
    simp only [parseList, Option.some.injEq, Prod.mk.injEq] at h; simp [← h.1, Exp1.frees, Core.fvs]
  | e :: es, env, k, k', _, h, hf => by
    obtain ⟨fe, fes⟩ := fits_cons hf
    intro x
    obtain ⟨e', k1, es', h1, h2, rfl⟩ := parseList_cons h
    have i1 := parse_free e h1 fe x
    have i2 := parseList_free es h2 (fitsAll_mono fes (parse_le e h1)) x
    simp only [Exp1.frees, mem_frees_acc (acc := union [] e'.free), mem_union, i1, i2, Core.fvs, List.mem_append,
      List.not_mem_nil, false_or]
    grind
end

end Cora.Compile
