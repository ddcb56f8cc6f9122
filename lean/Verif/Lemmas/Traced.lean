import Verif.Model.TraceWrap
import Verif.Props.VM
/-
Lemmas for C92: machines that differ in which functions are traced.
-/
namespace Spec.Machine

variable {W : Type} {tw : Nat}

/-! ### lists of values -/

theorem SameL.nil : SameL tw [] [] := ⟨rfl, fun i v v' h => by simp at h⟩

theorem SameL.cons {a a' : Val} {l l' : List Val} (h : Same tw a a') (hl : SameL tw l l') : SameL tw (a :: l) (a' :: l') := by
  refine ⟨by simp [hl.1], fun i v v' h1 h2 => ?_⟩
  cases i with
  | zero => simp at h1 h2; subst h1 h2; exact h
  | succ i => simp at h1 h2; exact hl.2 i v v' h1 h2

theorem SameL.cons_inv {a : Val} {l l' : List Val} (h : SameL tw (a :: l) l') :
    ∃ a' m, l' = a' :: m ∧ Same tw a a' ∧ SameL tw l m := by
  cases l' with
  | nil => exact absurd h.1 (by simp)
  | cons a' m =>
    exact ⟨a', m, rfl, h.2 0 a a' rfl rfl, by simpa using h.1, fun i v v' h1 h2 => h.2 (i + 1) v v' (by simpa using h1) (by simpa using h2)⟩

theorem SameL.nil_inv {l' : List Val} (h : SameL tw [] l') : l' = [] := by
  cases l' with
  | nil => rfl
  | cons => exact absurd h.1 (by simp)

theorem SameL.take {l l' : List Val} (h : SameL tw l l') (n : Nat) : SameL tw (l.take n) (l'.take n) := by
  refine ⟨by simp [h.1], fun i v v' h1 h2 => ?_⟩
  rw [List.getElem?_take] at h1 h2
  split at h1
  · rename_i hi
    rw [if_pos hi] at h2
    exact h.2 i v v' h1 h2
  · cases h1

theorem SameL.drop {l l' : List Val} (h : SameL tw l l') (n : Nat) : SameL tw (l.drop n) (l'.drop n) := by
  refine ⟨by simp [h.1], fun i v v' h1 h2 => ?_⟩
  rw [List.getElem?_drop] at h1 h2
  exact h.2 _ v v' h1 h2

theorem SameL.append {l l' m m' : List Val} (h : SameL tw l l') (hm : SameL tw m m') : SameL tw (l ++ m) (l' ++ m') := by
  induction l generalizing l' with
  | nil => rw [h.nil_inv]; exact hm
  | cons a l ih =>
    obtain ⟨a', n, rfl, h1, h2⟩ := h.cons_inv
    exact .cons h1 (ih h2)

/-! ### values -/

theorem Same.refl : ∀ v : Val, Same tw v v
  | .native c nf nr d => .native c nf nr d d rfl fun i v v' h1 h2 => by
      have hm := List.mem_of_getElem? h1
      have : sizeOf v < 1 + sizeOf c + sizeOf nf + sizeOf nr + sizeOf d := by
        have := List.sizeOf_lt_of_mem hm
        omega
      rw [h1] at h2
      injection h2 with h2
      subst h2
      exact Same.refl v
  | .cont i => .cont i
  | .nil => .nil
  | .cons a b => .cons a b a b (Same.refl a) (Same.refl b)
  | .other n => .other n
termination_by v => sizeOf v

theorem SameL.refl (l : List Val) : SameL tw l l :=
  ⟨rfl, fun i v v' h1 h2 => by rw [h1] at h2; injection h2 with h2; subst h2; exact Same.refl v⟩

theorem Same.symm {v v' : Val} (h : Same tw v v') : Same tw v' v := by
  induction h with
  | native c nf nr d d' hl _ ih => exact .native c nf nr d' d hl.symm fun i v v' h1 h2 => ih i v' v h2 h1
  | left c nf nr d sym v' _ ih => exact .right c nf nr d sym v' ih
  | right c nf nr d sym v _ ih => exact .left c nf nr d sym v ih
  | cont i => exact .cont i
  | nil => exact .nil
  | cons a b a' b' _ _ ih1 ih2 => exact .cons a' b' a b ih1 ih2
  | other n => exact .other n

theorem same_native {v v' : Val} (h : Same tw v v') : ∀ {c nf nr d}, v = .native c nf nr d → ∃ c' d', v' = .native c' nf nr d' := by
  induction h with
  | native c nf nr d d' hl _ ih => intro c1 nf1 nr1 d1 e; injection e with _ e1 e2 _; subst e1 e2; exact ⟨_, _, rfl⟩
  | left c nf nr d sym v' _ ih => intro c1 nf1 nr1 d1 e; injection e with _ e1 e2 _; subst e1 e2; exact ih rfl
  | right c nf nr d sym v hs ih =>
    intro c1 nf1 nr1 d1 e
    obtain ⟨c2, d2, e2⟩ := ih e
    injection e2 with _ e3 e4 _
    subst e3 e4
    exact ⟨_, _, rfl⟩
  | _ => intro c1 nf1 nr1 d1 e; cases e

theorem same_native' {v v' : Val} (h : Same tw v v') {c : Code} {nf nr : Nat} {d : List Val} (e : v' = .native c nf nr d) :
    ∃ c' d', v = .native c' nf nr d' := same_native h.symm e

theorem same_cons {a b v' : Val} (h : Same tw (.cons a b) v') : ∃ a' b', v' = .cons a' b' ∧ Same tw a a' ∧ Same tw b b' := by
  cases h with
  | right c nf nr d sym _ h => obtain ⟨_, _, e⟩ := same_native' h rfl; cases e
  | cons _ _ a' b' h1 h2 => exact ⟨a', b', rfl, h1, h2⟩

theorem same_nil {v' : Val} (h : Same tw .nil v') : v' = .nil := by
  cases h with
  | right c nf nr d sym _ h => obtain ⟨_, _, e⟩ := same_native' h rfl; cases e
  | nil => rfl

theorem same_cont {i : Nat} {v' : Val} (h : Same tw (.cont i) v') : v' = .cont i := by
  cases h with
  | right c nf nr d sym _ h => obtain ⟨_, _, e⟩ := same_native' h rfl; cases e
  | cont => rfl

theorem same_other {i : Nat} {v' : Val} (h : Same tw (.other i) v') : v' = .other i := by
  cases h with
  | right c nf nr d sym _ h => obtain ⟨_, _, e⟩ := same_native' h rfl; cases e
  | other => rfl

/-- values without functions are equal -/
theorem same_plainly {v v' : Val} (hp : Plainly v) (h : Same tw v v') : v' = v := by
  induction hp generalizing v' with
  | nil => exact same_nil h
  | other n => exact same_other h
  | cons a b _ _ ih1 ih2 =>
    obtain ⟨a', b', rfl, h1, h2⟩ := same_cons h
    rw [ih1 h1, ih2 h2]

theorem same_list {v v' : Val} {l : List Val} (hl : IsList v l) (h : Same tw v v') : ∃ l', IsList v' l' ∧ SameL tw l l' := by
  induction hl generalizing v' with
  | nil => rw [same_nil h]; exact ⟨[], .nil, .nil⟩
  | cons a b l _ ih =>
    obtain ⟨a', b', rfl, h1, h2⟩ := same_cons h
    obtain ⟨l', h3, h4⟩ := ih h2
    exact ⟨a' :: l', .cons a' b' l' h3, .cons h1 h4⟩

/-! ### states -/

/-- states that agree in everything but the current activation -/
structure SameBut (tw : Nat) (R : W → W → Prop) (s t : ASt W) : Prop where
  stack : SameFs tw s.stack t.stack
  len : s.conts.length = t.conts.length
  conts : ∀ (i : Nat) k k', s.conts[i]? = some k → t.conts[i]? = some k' → SameK tw k k'
  w : R s.w t.w
  res : Same tw s.res t.res

variable {R : W → W → Prop}

theorem SameSt.but {s t : ASt W} (h : SameSt tw R s t) : SameBut tw R s t := ⟨h.stack, h.len, h.conts, h.w, h.res⟩

theorem SameBut.with {s t : ASt W} (h : SameBut tw R s t) {f f' : AFrame} (hf : SameF tw f f') :
    SameSt tw R { s with cur := f } { t with cur := f' } := ⟨hf, h.res, h.stack, h.len, h.conts, h.w⟩

theorem SameBut.push {s t : ASt W} (h : SameBut tw R s t) {f f' : AFrame} (hf : SameF tw f f') :
    SameBut tw R { s with stack := f :: s.stack } { t with stack := f' :: t.stack } := ⟨⟨hf, h.stack⟩, h.len, h.conts, h.w, h.res⟩

theorem SameBut.world {s t : ASt W} (h : SameBut tw R s t) {w w' : W} (hw : R w w') :
    SameBut tw R { s with w := w } { t with w := w' } := ⟨h.stack, h.len, h.conts, hw, h.res⟩

theorem sameFs_cons {f : AFrame} {fs gs : List AFrame} (h : SameFs tw (f :: fs) gs) :
    ∃ g gs', gs = g :: gs' ∧ SameF tw f g ∧ SameFs tw fs gs' := by
  cases gs with
  | nil => exact h.elim
  | cons g gs => exact ⟨g, gs, rfl, h.1, h.2⟩

theorem return_same {s t s' : ASt W} (h : SameBut tw R s t) {v v' : Val} (hv : Same tw v v') (hr : Return v s s') :
    ∃ t', Return v' t t' ∧ SameSt tw R s' t' := by
  cases hr with
  | mk f fs e =>
    have hst := h.stack
    rw [e] at hst
    obtain ⟨g, gs, e', h1, h2⟩ := sameFs_cons hst
    exact ⟨_, .mk t g gs e', h1, hv, h2, h.len, h.conts, h.w⟩

theorem enter_same {s t s' : ASt W} (h : SameBut tw R s t) {f f' : Val} {args args' : List Val} (hf : Same tw f f')
    (ha : SameL tw args args') (hr : Enter f args s s') : ∃ t', Enter f' args' t t' ∧ SameSt tw R s' t' := by
  obtain ⟨c, nf, nr, d, junk, _, e1, e2, e3, e4⟩ := hr
  obtain ⟨c', d', e5⟩ := same_native hf e1
  refine ⟨_, .mk c' nf nr d' junk t e5 (by rw [← ha.1]; exact e2) (by simp at e3 ⊢; rw [← ha.1]; exact e3) e4, ?_⟩
  refine h.with ⟨rfl, nf, nr, d, d', args ++ junk, args' ++ junk, by rw [e1]; rfl, by rw [e5]; rfl, by rw [← e1, ← e5]; exact hf,
    ha.append (.refl junk)⟩

theorem applies_same {s t s' : ASt W} (h : SameBut tw R s t) {f f' : Val} {args args' : List Val} (hf : Same tw f f')
    (ha : SameL tw args args') (hr : Applies f args s s') : ∃ t', Applies f' args' t t' ∧ SameSt tw R s' t' := by
  cases hr with
  | exact _ _ _ _ he =>
    obtain ⟨t', h1, h2⟩ := enter_same h hf ha he
    exact ⟨t', .exact _ _ _ _ h1, h2⟩
  | none c nf nr d _ _ h1 hr =>
    obtain ⟨c', d', rfl⟩ := same_native hf rfl
    obtain ⟨t', g1, g2⟩ := return_same h hf hr
    rw [ha.nil_inv]
    exact ⟨t', .none c' nf nr d' _ _ h1 g1, g2⟩
  | less c nf nr d _ _ _ h1 h2 hr =>
    obtain ⟨c', d', rfl⟩ := same_native hf rfl
    have hc : Same tw (.native .curry nf (nr - args.length) (.native c nf nr d :: args))
        (.native .curry nf (nr - args'.length) (.native c' nf nr d' :: args')) := by
      rw [← ha.1]
      exact .native _ _ _ _ _ (SameL.cons hf ha).1 (SameL.cons hf ha).2
    obtain ⟨t', g1, g2⟩ := return_same h hc hr
    refine ⟨t', .less c' nf nr d' _ _ _ ?_ (by rw [← ha.1]; exact h2) g1, g2⟩
    intro e
    subst e
    exact h1 (by have := ha.1; simpa using this)
  | more c nf nr d _ _ _ h1 hr =>
    obtain ⟨c', d', rfl⟩ := same_native hf rfl
    obtain ⟨t', g1, g2⟩ := enter_same (h.push (f := .rest (args.drop nr)) (f' := .rest (args'.drop nr)) (ha.drop nr)) hf (ha.take nr) hr
    exact ⟨t', .more c' nf nr d' _ _ _ (by rw [← ha.1]; exact h1) g1, g2⟩

theorem sameFs_split {pre post gs : List AFrame} (h : SameFs tw (pre ++ post) gs) :
    ∃ pre' post', gs = pre' ++ post' ∧ SameFs tw pre pre' ∧ SameFs tw post post' := by
  induction pre generalizing gs with
  | nil => exact ⟨[], gs, rfl, trivial, h⟩
  | cons f pre ih =>
    obtain ⟨g, gs', rfl, h1, h2⟩ := sameFs_cons h
    obtain ⟨p, q, rfl, h3, h4⟩ := ih h2
    exact ⟨g :: p, q, rfl, ⟨h1, h3⟩, h4⟩

theorem sameFs_append {a a' b b' : List AFrame} (h : SameFs tw a a') (hb : SameFs tw b b') : SameFs tw (a ++ b) (a' ++ b') := by
  induction a generalizing a' with
  | nil => cases a' with
    | nil => exact hb
    | cons => exact h.elim
  | cons f a ih =>
    obtain ⟨g, gs, rfl, h1, h2⟩ := sameFs_cons h
    exact ⟨h1, ih h2⟩

theorem sameFs_code {a a' : List AFrame} (h : SameFs tw a a') (hc : ∀ f ∈ a, f.isCode) : ∀ f ∈ a', f.isCode := by
  induction a generalizing a' with
  | nil => cases a' with
    | nil => exact hc
    | cons => exact h.elim
  | cons f a ih =>
    obtain ⟨g, gs, rfl, h1, h2⟩ := sameFs_cons h
    intro x hx
    rcases List.mem_cons.mp hx with rfl | hx
    · have := hc f (by simp)
      cases f <;> cases x <;> first | trivial | exact this.elim | exact h1.elim
    · exact ih h2 (fun f hf => hc f (by simp [hf])) x hx

/-- the current activations run the same code, of functions with the same captured values -/
def Direct (tw : Nat) (f g : AFrame) : Prop :=
  ∀ c l r, f = .code c l r → ∃ nf nr d d' rs rs', r = .native c nf nr d :: rs ∧ g = .code c l (.native c nf nr d' :: rs') ∧
    SameL tw d d' ∧ SameL tw rs rs'

theorem plain_same {sem : Sem W} (hB : Blind tw R sem) {s t s' : ASt W} (h : SameSt tw R s t) (hp : ∀ l r, s.cur ≠ .code (.user tw) l r)
    (hd : Direct tw s.cur t.cur) (hs : AStep sem s s') : ∃ t', AStep sem t t' ∧ SameSt tw R s' t' := by
  cases hs with
  | ret n l regs o v _ _ hc h1 h2 h3 h4 =>
    obtain ⟨nf, nr, d, d', rs, rs', rfl, ht, g1, g2⟩ := hd _ _ _ hc
    obtain ⟨o', q, q', k1, k2, k3, k4, k5, k6⟩ := hB n (fun e => hp l _ (by rw [hc, e])) l nf nr d d' rs rs' _ _ _ _ g1 g2 h.res h.w o h1
    rw [h3] at k5
    cases ho : o'.term <;> rw [ho] at k5 <;> try exact k5.elim
    rename_i v'
    obtain ⟨t', x1, x2⟩ := return_same (h.but.world k6) k5 h4
    exact ⟨t', .ret n l _ o' v' _ _ ht k1 (by rw [k3]; rw [k2] at h2; simp at h2 ⊢; rw [← k4.1, h2, g2.1]) ho x1, x2⟩
  | tail n l regs o f args _ _ hc h1 h2 h3 h4 =>
    obtain ⟨nf, nr, d, d', rs, rs', rfl, ht, g1, g2⟩ := hd _ _ _ hc
    obtain ⟨o', q, q', k1, k2, k3, k4, k5, k6⟩ := hB n (fun e => hp l _ (by rw [hc, e])) l nf nr d d' rs rs' _ _ _ _ g1 g2 h.res h.w o h1
    rw [h3] at k5
    cases ho : o'.term <;> rw [ho] at k5 <;> try exact k5.elim
    rename_i f' args'
    obtain ⟨t', x1, x2⟩ := applies_same (h.but.world k6) k5.1 k5.2 h4
    exact ⟨t', .tail n l _ o' f' args' _ _ ht k1 (by rw [k3]; rw [k2] at h2; simp at h2 ⊢; rw [← k4.1, h2, g2.1]) ho x1, x2⟩
  | call n l regs o l' f args _ _ hc h1 h2 h3 h4 =>
    obtain ⟨nf, nr, d, d', rs, rs', rfl, ht, g1, g2⟩ := hd _ _ _ hc
    obtain ⟨o', q, q', k1, k2, k3, k4, k5, k6⟩ := hB n (fun e => hp l _ (by rw [hc, e])) l nf nr d d' rs rs' _ _ _ _ g1 g2 h.res h.w o h1
    rw [h3] at k5
    cases ho : o'.term <;> rw [ho] at k5 <;> try exact k5.elim
    rename_i l2 f' args'
    obtain ⟨rfl, k5, k7⟩ := k5
    have hfr : SameF tw (.code (.user n) l' o.regs) (.code (.user n) l' o'.regs) :=
      ⟨rfl, nf, nr, d, d', q, q', k2, k3, .native _ _ _ _ _ g1.1 g1.2, k4⟩
    obtain ⟨t', x1, x2⟩ := applies_same ((h.but.world k6).push hfr) k5 k7 h4
    exact ⟨t', .call n l _ o' l' f' args' _ _ ht k1 (by rw [k3]; rw [k2] at h2; simp at h2 ⊢; rw [← k4.1, h2, g2.1]) ho x1, x2⟩
  | curry l nframe required g got args junk junk' c gn gr gd _ hc h1 h2 h3 =>
    obtain ⟨nf, nr, d, d', rs, rs', e1, ht, g1, g2⟩ := hd _ _ _ hc
    rw [List.cons_append] at e1
    injection e1 with e1 e2
    injection e1 with _ e3 e4 e5
    subst e2 e3 e4 e5
    obtain ⟨g', got', rfl, k1, k2⟩ := g1.cons_inv
    obtain ⟨c', gd', e6⟩ := same_native k1 h2
    have ha : SameL tw args (rs'.take required) := by
      have := g2.take required
      rwa [← h1, List.take_left, h1] at this
    have hj : SameL tw junk (rs'.drop required) := by
      have := g2.drop required
      rwa [← h1, List.drop_left, h1] at this
    refine ⟨_, .curry l nframe required g' got' (rs'.take required) (rs'.drop required) junk' c' gn gr gd' t ?_ ?_ e6 ?_, ?_⟩
    · rw [ht, List.cons_append, List.take_append_drop]
    · rw [← ha.1, h1]
    · simp only [List.cons_append, List.length_cons, List.length_append] at h3 ⊢
      rw [← k2.1, ← ha.1, ← hj.1]
      exact h3
    · refine h.but.with ⟨rfl, gn, gr, gd, gd', got ++ args ++ junk', got' ++ rs'.take required ++ junk', ?_, ?_, ?_, ?_⟩
      · rw [h2]; simp
      · rw [e6]; simp
      · rw [← h2, ← e6]; exact k1
      · exact (k2.append ha).append (.refl _)
  | try' self thunk hh junk _ _ hc h1 =>
    obtain ⟨nf, nr, d, d', rs, rs', e1, ht, g1, g2⟩ := hd _ _ _ hc
    injection e1 with e1 e2
    subst e1 e2
    obtain ⟨thunk', m, rfl, k1, g2⟩ := g2.cons_inv
    obtain ⟨hh', m, rfl, k2, g2⟩ := g2.cons_inv
    obtain ⟨t', x1, x2⟩ := applies_same (h.but.push (f := .handler hh) (f' := .handler hh') k2) k1 .nil h1
    exact ⟨t', .try' _ thunk' hh' m _ _ ht x1, x2⟩
  | handler hh _ _ hc h1 =>
    have hcur := h.cur
    rw [hc] at hcur
    cases ht : t.cur <;> rw [ht] at hcur <;> try exact hcur.elim
    rename_i hh'
    obtain ⟨t', x1, x2⟩ := return_same h.but h.res h1
    exact ⟨t', .handler hh' _ _ ht x1, x2⟩
  | throw self v junk pre post hh l _ _ hc h1 h2 h3 =>
    obtain ⟨nf, nr, d, d', rs, rs', e1, ht, g1, g2⟩ := hd _ _ _ hc
    injection e1 with e1 e2
    subst e1 e2
    obtain ⟨v', m, rfl, k1, g2⟩ := g2.cons_inv
    have hst := h.stack
    rw [h1] at hst
    obtain ⟨pre', post1, e3, k2, k3⟩ := sameFs_split hst
    obtain ⟨hf, post', rfl, k4, k5⟩ := sameFs_cons k3
    cases hf <;> try exact k4.elim
    rename_i hh'
    have hb : SameBut tw R { s with stack := post, conts := s.conts ++ [some (pre, hh)] }
        { t with stack := post', conts := t.conts ++ [some (pre', hh')] } := by
      refine ⟨k5, by simp [h.len], ?_, h.w, h.res⟩
      intro i k k' hk hk'
      simp only at hk hk'
      rw [List.getElem?_append] at hk hk'
      rw [← h.len] at hk'
      split at hk
      · rename_i hi
        rw [if_pos hi] at hk'
        exact h.conts i k k' hk hk'
      · rename_i hi
        rw [if_neg hi] at hk'
        cases hx : i - s.conts.length with
        | zero =>
          rw [hx] at hk hk'
          simp at hk hk'
          subst hk hk'
          exact ⟨k2, k4⟩
        | succ j => rw [hx] at hk; simp at hk
    obtain ⟨t', x1, x2⟩ := applies_same hb k4 (.cons k1 (.cons (.refl (.native .resume 2 1 [.cont s.conts.length])) .nil)) h3
    rw [h.len] at x1
    exact ⟨t', .throw _ v' m pre' post' hh' l _ _ ht e3 (sameFs_code k2 h2) x1, x2⟩
  | resume nf nr id v junk pre hh l _ _ hc h1 h2 =>
    obtain ⟨nf', nr', d, d', rs, rs', e1, ht, g1, g2⟩ := hd _ _ _ hc
    injection e1 with e1 e2
    injection e1 with _ e3 e4 e5
    subst e2 e3 e4 e5
    obtain ⟨x, m, rfl, k1, g1⟩ := g1.cons_inv
    rw [g1.nil_inv, same_cont k1] at ht
    obtain ⟨v', m, rfl, k2, g2⟩ := g2.cons_inv
    have hid : id < t.conts.length := by
      rw [← h.len]
      exact (List.getElem?_eq_some_iff.mp h1).1
    have hk := h.conts id _ _ h1 (List.getElem?_eq_getElem hid)
    cases hx : t.conts[id] with
    | none => rw [hx] at hk; exact hk.elim
    | some p =>
      obtain ⟨pre', hh'⟩ := p
      rw [hx] at hk
      have hb : SameBut tw R { s with stack := pre ++ .handler hh :: s.stack, conts := s.conts.set id none }
          { t with stack := pre' ++ .handler hh' :: t.stack, conts := t.conts.set id none } := by
        refine ⟨sameFs_append hk.1 ⟨hk.2, h.stack⟩, by simp [h.len], ?_, h.w, h.res⟩
        intro i k k' q q'
        simp only at q q'
        rw [List.getElem?_set] at q q'
        by_cases hi : id = i
        · subst hi
          rw [if_pos rfl, if_pos (by rw [h.len]; exact hid)] at q
          rw [if_pos rfl, if_pos hid] at q'
          injection q with q
          injection q' with q'
          subst q q'
          trivial
        · rw [if_neg hi] at q q'
          exact h.conts i k k' q q'
      obtain ⟨t', x1, x2⟩ := return_same hb k2 h2
      exact ⟨t', .resume nf nr id v' m pre' hh' l _ _ ht (by rw [List.getElem?_eq_getElem hid, hx]) x1, x2⟩
  | apply self f l args junk lbl _ _ hc h1 h2 =>
    obtain ⟨nf, nr, d, d', rs, rs', e1, ht, g1, g2⟩ := hd _ _ _ hc
    injection e1 with e1 e2
    subst e1 e2
    obtain ⟨f', m, rfl, k1, g2⟩ := g2.cons_inv
    obtain ⟨l', m, rfl, k2, g2⟩ := g2.cons_inv
    obtain ⟨args', k3, k4⟩ := same_list h1 k2
    obtain ⟨t', x1, x2⟩ := enter_same h.but k1 k4 h2
    exact ⟨t', .apply _ f' l' args' m lbl _ _ ht k3 x1, x2⟩
  | rest args _ _ hc h1 =>
    have hcur := h.cur
    rw [hc] at hcur
    cases ht : t.cur <;> rw [ht] at hcur <;> try exact hcur.elim
    rename_i args'
    obtain ⟨t', x1, x2⟩ := applies_same h.but h.res hcur h1
    exact ⟨t', .rest args' _ _ ht x1, x2⟩

/-- the traced functions around the second value are taken off -/
theorem strip {sem : Sem W} {v v' : Val} (h : Same tw v v') : ∀ {c c' : Code} {nf nr : Nat} {d d' : List Val}, v = .native c nf nr d →
    v' = .native c' nf nr d' → ∃ c0 d0, Same tw v (.native c0 nf nr d0) ∧
      ((c0 = c ∧ SameL tw d d0) ∨ (c = .user tw ∧ ∃ c1 d1 sym, d = [.native c1 nf nr d1, sym] ∧ Same tw (.native c1 nf nr d1) (.native c0 nf nr d0))) ∧
      ∀ (t t' : ASt W) l rs ns, TStep tw sem ns { t with cur := .code c0 l (.native c0 nf nr d0 :: rs) } t' →
        ∃ ns', TStep tw sem ns' { t with cur := .code c' l (.native c' nf nr d' :: rs) } t' := by
  induction h with
  | native c nf nr d d' hl hi _ =>
    intro c1 c1' nf1 nr1 d1 d1' e e'
    injection e with e1 e2 e3 e4
    injection e' with e1' e2' e3' e4'
    subst e1 e2 e3 e4 e1' e4'
    exact ⟨c, d', .native c nf nr d d' hl hi, .inl ⟨rfl, hl, hi⟩, fun t t' l rs ns h => ⟨ns, h⟩⟩
  | left c nf nr d sym v' hs _ =>
    intro c1 c1' nf1 nr1 d1 d1' e e'
    injection e with e1 e2 e3 e4
    subst e1 e2 e3 e4 e'
    exact ⟨c1', d1', .left c nf nr d sym _ hs, .inr ⟨rfl, c, d, sym, rfl, hs⟩, fun t t' l rs ns h => ⟨ns, h⟩⟩
  | right c nf nr d sym v hs ih =>
    intro c1 c1' nf1 nr1 d1 d1' e e'
    injection e' with e1 e2 e3 e4
    subst e1 e2 e3 e4
    obtain ⟨c0, d0, h1, h2, h3⟩ := ih e rfl
    refine ⟨c0, d0, h1, h2, fun t t' l rs ns h => ?_⟩
    obtain ⟨ns', h4⟩ := h3 t t' l rs ns h
    exact ⟨sym :: ns', .traced l nf nr nf nr c d rs ns' sym _ _ rfl h4⟩
  | _ => intro c1 c1' nf1 nr1 d1 d1' e; cases e

/-- one step of two machines whose functions differ in what is traced -/
theorem step_same {sem : Sem W} (hB : Blind tw R sem) {s t s' : ASt W} {ns : List Val} (h : SameSt tw R s t) (hs : TStep tw sem ns s s') :
    ∃ ns' t', TStep tw sem ns' t t' ∧ SameSt tw R s' t' := by
  induction hs generalizing t with
  | plain s s' hp hs =>
    cases hc : s.cur with
    | code c l r =>
      have hcur := h.cur
      rw [hc] at hcur
      cases ht : t.cur <;> rw [ht] at hcur <;> try exact hcur.elim
      rename_i c' l' r'
      obtain ⟨rfl, nf, nr, d, d', rs, rs', rfl, rfl, h1, h2⟩ := hcur
      obtain ⟨c0, d0, k1, k2, k3⟩ := strip (sem := sem) h1 rfl rfl
      have hne : c ≠ .user tw := fun e => hp l _ (by rw [hc, e])
      rcases k2 with ⟨rfl, k2⟩ | ⟨e, _⟩
      · have hst : SameSt tw R s { t with cur := .code c0 l (.native c0 nf nr d0 :: rs') } := by
          have := h.but.with (f := s.cur) (f' := .code c0 l (.native c0 nf nr d0 :: rs')) (by
            rw [hc]; exact ⟨rfl, nf, nr, d, d0, rs, rs', rfl, rfl, k1, h2⟩)
          exact this
        obtain ⟨t', x1, x2⟩ := plain_same hB hst hp (fun c l r e => by
          rw [hc] at e
          injection e with e1 e2 e3
          subst e1 e2 e3
          exact ⟨nf, nr, d, d0, rs, rs', rfl, rfl, k2, h2⟩) hs
        obtain ⟨ns', x3⟩ := k3 t t' l rs' [] (.plain _ _ (fun l r e => by injection e with e; exact hne e) x1)
        refine ⟨ns', t', ?_, x2⟩
        rw [← ht] at x3
        exact x3
      · exact absurd e hne
    | rest a =>
      have hcur := h.cur
      rw [hc] at hcur
      obtain ⟨t', x1, x2⟩ := plain_same hB h hp (fun c l r e => by rw [hc] at e; cases e) hs
      exact ⟨[], t', .plain _ _ (fun l r e => by rw [e] at hcur; exact hcur.elim) x1, x2⟩
    | exit =>
      have hcur := h.cur
      rw [hc] at hcur
      obtain ⟨t', x1, x2⟩ := plain_same hB h hp (fun c l r e => by rw [hc] at e; cases e) hs
      exact ⟨[], t', .plain _ _ (fun l r e => by rw [e] at hcur; exact hcur.elim) x1, x2⟩
    | handler a =>
      have hcur := h.cur
      rw [hc] at hcur
      obtain ⟨t', x1, x2⟩ := plain_same hB h hp (fun c l r e => by rw [hc] at e; cases e) hs
      exact ⟨[], t', .plain _ _ (fun l r e => by rw [e] at hcur; exact hcur.elim) x1, x2⟩
  | traced l nf nr gn gr c gd rs ns sym s s' hc _ ih =>
    have hcur := h.cur
    rw [hc] at hcur
    cases ht : t.cur <;> rw [ht] at hcur <;> try exact hcur.elim
    rename_i c' l' r'
    obtain ⟨rfl, nf', nr', d, d', rs1, rs', e, rfl, h1, h2⟩ := hcur
    injection e with e1 e2
    injection e1 with _ e3 e4 e5
    subst e2 e3 e4 e5
    obtain ⟨c0, d0, k1, k2, k3⟩ := strip (sem := sem) h1 rfl rfl
    rcases k2 with ⟨rfl, k2⟩ | ⟨_, c1, d1, sym1, e, k2⟩
    · obtain ⟨g', m, rfl, k4, k5⟩ := k2.cons_inv
      obtain ⟨sym', m, rfl, k6, k7⟩ := k5.cons_inv
      obtain ⟨cg, dg, rfl⟩ := same_native k4 rfl
      rw [k7.nil_inv] at k3 k1
      obtain ⟨ns', t', x1, x2⟩ := ih (t := { t with cur := .code cg l (.native cg gn gr dg :: rs') })
        (h.but.with ⟨rfl, gn, gr, gd, dg, rs, rs', rfl, rfl, k4, h2⟩)
      obtain ⟨ns2, x3⟩ := k3 t t' l rs' _ (.traced l nf nr gn gr cg dg rs' ns' sym' _ _ rfl x1)
      rw [← ht] at x3
      exact ⟨ns2, t', x3, x2⟩
    · injection e with e e'
      injection e with e1 e2 e3 e4
      subst e1 e2 e3 e4
      obtain ⟨ns', t', x1, x2⟩ := ih (t := { t with cur := .code c0 l (.native c0 gn gr d0 :: rs') })
        (h.but.with ⟨rfl, gn, gr, gd, d0, rs, rs', rfl, rfl, k2, h2⟩)
      obtain ⟨ns2, x3⟩ := k3 t t' l rs' _ x1
      rw [← ht] at x3
      exact ⟨ns2, t', x3, x2⟩

theorem reach_same {sem : Sem W} (hB : Blind tw R sem) {k : Nat} {ns : List Val} {s t s' : ASt W} (h : SameSt tw R s t)
    (hs : TReach tw sem k ns s s') : ∃ ns' t', TReach tw sem k ns' t t' ∧ SameSt tw R s' t' := by
  induction hs with
  | zero s => exact ⟨[], t, .zero t, h⟩
  | succ k ns ns1 s s1 s2 _ h2 ih =>
    obtain ⟨ns', t1, x1, x2⟩ := ih h
    obtain ⟨ns2, t2, x3, x4⟩ := step_same hB x2 h2
    exact ⟨_, t2, .succ k _ _ _ _ _ x1 x3, x4⟩

end Spec.Machine

open Spec.Machine
namespace Cora.VM

variable {W : Type} {tw : Nat}

/-! ### the virtual machine -/

theorem stepT_mono {fits : Val → Bool} {malloc : List Nat → Nat} {sem : Sem W} {n : Nat} : ∀ {m : Nat} {c : Cora W} {r : Cora W × List Val},
    stepT tw fits malloc sem n c = some r → n ≤ m → stepT tw fits malloc sem m c = some r := by
  induction n with
  | zero => intro m c r h; cases h
  | succ n ih =>
    intro m c r h hm
    obtain ⟨m, rfl⟩ : ∃ m', m = m' + 1 := ⟨m - 1, by omega⟩
    unfold stepT at h ⊢
    split at h
    · rename_i h1
      rw [if_pos h1]
      split at h
      · rename_i h2
        rw [if_pos h2]
        split at h
        · split at h
          · rename_i h4
            split at h
            · rename_i h5
              simp only [if_pos h5]
              cases hst : c.store c.ctx.bp [Val.native _ _ _ _] with
              | none => rw [hst] at h; cases h
              | some c1 =>
                rw [hst] at h
                simp only [Option.bind_eq_bind, Option.bind_some] at h ⊢
                cases hs : stepT tw fits malloc sem n { c1 with ctx := { c1.ctx with fn := some _ } } with
                | none => rw [hs] at h; cases h
                | some p => rw [hs] at h; rw [ih hs (by omega)]; exact h
            · cases h
          · cases h
        · cases h
      · cases h
    · rename_i h1
      rw [if_neg h1]
      exact h

/-- a traced function puts the function it holds in its place -/
theorem patch_rel {strict : Prop} {c : Cora W} {a : ASt W} (h : Rel strict c a) {l : Nat} {v g : Val} {rs : List Val} {code code' : Code}
    (hc : a.cur = .code code' l (v :: rs)) : c.valid c.ctx.bp = true ∧ c.mem c.ctx.bp = v ∧ c.ctx.fn = some code' ∧
      ∃ mem', c.store c.ctx.bp [g] = some { c with mem := mem' } ∧
        Rel strict { c with mem := mem', ctx := { c.ctx with fn := some code } } { a with cur := .code code l (g :: rs) } := by
  obtain ⟨segs', hin, hfn, hlab, hregs, hcr, hpre⟩ := h.code_inv hc
  have hi1 := hin.1
  have hi2 := hin.2.1
  have hi3 := hin.2.2
  obtain ⟨r, hd⟩ := h.mem.seg
  have hn : (v :: rs).length = c.ctx.sp - c.ctx.bp := by rw [hregs, readMem_length]
  simp only [List.length_cons] at hn
  have hb : c.begin_ ∈ c.heap := h.mem.heap _ (by rw [hd]; simp)
  have hst := store_ok h.mem (s := c.begin_) (a := c.ctx.bp) (vs := [g]) hb hi1 (by simp; omega)
  have hsp : c.ctx.sp - c.ctx.bp = 1 + rs.length := by omega
  rw [hsp, readMem_split] at hregs
  have hone : ∀ mem : Nat → Val, readMem mem c.ctx.bp 1 = [mem c.ctx.bp] := fun mem => by simp [readMem, List.range_succ]
  rw [hone, List.singleton_append] at hregs
  injection hregs with hv hrs
  refine ⟨h.mem.valid hb hi1 (by omega), hv.symm, hfn, _, hst, ?_⟩
  generalize hmm : (fun p => if c.ctx.bp ≤ p ∧ p < c.ctx.bp + [g].length then [g].getD (p - c.ctx.bp) Val.nil else c.mem p) = mem'
  have hread : readMem mem' c.ctx.bp (c.ctx.sp - c.ctx.bp) = g :: rs := by
    rw [hsp, readMem_split, hone, List.singleton_append]
    congr 1
    · rw [← hmm]
      show (if _ then _ else _) = _
      rw [if_pos (by simp)]
      simp
    · refine Eq.trans ?_ hrs.symm
      apply readMem_congr
      intro p h1 h2
      rw [← hmm]
      show (if _ then _ else _) = _
      rw [if_neg (by simp; omega)]
  have hp : Pre strict { c with mem := mem', ctx := { c.ctx with fn := some code } } a c.ctx.bp segs' := by
    refine hpre.congr rfl rfl rfl rfl rfl rfl rfl rfl rfl rfl h.res h.w ?_
    intro p hp
    show mem' p = c.mem p
    rw [← hmm]
    show (if _ then _ else _) = _
    rw [if_neg (by simp; omega)]
  refine ⟨?_, hp.mem, hp.conts, h.res, h.w⟩
  have := Stk.code c.begin_ r { c.ctx with fn := some code } c.callstack code a.stack c.trystack c.cstack
    segs' (mem := mem') (strict := strict) hin rfl (by rw [← hd]; exact hp.under) hp.stk
  rw [show readMem mem' ({ c.ctx with fn := some code } : Frame).bp
    (({ c.ctx with fn := some code } : Frame).sp - ({ c.ctx with fn := some code } : Frame).bp) = _ from hread,
    ← hd, show ({ c.ctx with fn := some code } : Frame).label = l from hlab] at this
  exact this

theorem stepT_rel {malloc : List Nat → Nat} (hmal : Fresh malloc) {fits : Val → Bool} {sem : Sem W} {a a0 : ASt W} {ns : List Val}
    (hs : TStep tw sem ns a a0) : ∀ {c : Cora W}, Rel False c a → (∀ v ∈ ns, fits v = true) →
    ∃ n c', stepT tw fits malloc sem n c = some (c', ns) ∧ (Good False c' → ∃ a', TStep tw sem ns a a' ∧ Rel False c' a') := by
  induction hs with
  | plain s s' hp hs =>
    intro c h _
    obtain ⟨c', h1, h2⟩ := step_rel (malloc := malloc) hmal h (fun h => h.elim) hs
    refine ⟨1, c', ?_, fun hg => ?_⟩
    · unfold stepT
      rw [if_neg, h1]
      · rfl
      · intro hfn
        have hv := h.view.frames.1
        cases hc : s.cur with
        | code code l r =>
          rw [hc] at hv
          rw [hv.1] at hfn
          injection hfn with hfn
          exact hp l r (by rw [hc, hfn])
        | rest => rw [hc] at hv; rw [hv] at hfn; cases hfn
        | exit => rw [hc] at hv; rw [hv] at hfn; cases hfn
        | handler => rw [hc] at hv; rw [hv.1] at hfn; cases hfn
    · obtain ⟨a', g1, g2⟩ := h2 hg
      exact ⟨a', .plain _ _ hp g1, g2⟩
  | traced l nf nr gn gr code gd rs ns sym s s' hc _ ih =>
    intro c h hf
    obtain ⟨h1, h2, h3, mem', h4, h5⟩ := patch_rel (g := .native code gn gr gd) (code := code) h hc
    obtain ⟨n, c', g1, g2⟩ := ih h5 (fun v hv => hf v (by simp [hv]))
    refine ⟨n + 1, c', ?_, fun hg => ?_⟩
    · unfold stepT
      rw [if_pos h3, if_pos h1, h2]
      simp only [if_pos (hf sym (by simp)), h4, Option.bind_eq_bind, Option.bind_some, g1]
    · obtain ⟨a', k1, k2⟩ := g2 hg
      exact ⟨a', .traced l nf nr gn gr code gd rs ns sym _ _ hc k1, k2⟩

theorem runT_mono {fits : Val → Bool} {malloc : List Nat → Nat} {sem : Sem W} {n m : Nat} (hm : n ≤ m) {k : Nat} :
    ∀ {c : Cora W} {r : Cora W × List Val}, runT tw fits malloc sem n k c = some r → runT tw fits malloc sem m k c = some r := by
  induction k with
  | zero => intro c r h; exact h
  | succ k ih =>
    intro c r h
    unfold runT at h ⊢
    cases h1 : runT tw fits malloc sem n k c with
    | none => rw [h1] at h; cases h
    | some p =>
      rw [h1] at h
      rw [ih h1]
      simp only [Option.bind_eq_bind, Option.bind_some] at h ⊢
      cases h2 : stepT tw fits malloc sem n p.1 with
      | none => rw [h2] at h; cases h
      | some q => rw [h2] at h; rw [stepT_mono h2 hm]; exact h

/-- what the virtual machine does with traced functions, next to the abstract machine -/
theorem runT_rel (malloc : List Nat → Nat) (hmal : ∀ h, ∀ s ∈ h, malloc h + 256 ≤ s ∨ s + 256 ≤ malloc h) (fits : Val → Bool)
    (sem : Sem W) (b n : Nat) (regs : List Val) (res : Val) (w : W) (hregs : regs.length < 256)
    (hfits : ∀ k ns a, TReach tw sem k ns (aboot n regs res w) a → ∀ v ∈ ns, fits v = true)
    (hspan : ∀ m k c ns, runT tw fits malloc sem m k (boot b n regs res w) = some (c, ns) → Spans c.data (c.ctx :: c.callstack)) (k : Nat) :
    (∃ m c ns a, runT tw fits malloc sem m k (boot b n regs res w) = some (c, ns) ∧ TReach tw sem k ns (aboot n regs res w) a ∧
      Rel False c a) ∨
    (∃ j m c ns a, j < k ∧ runT tw fits malloc sem m j (boot b n regs res w) = some (c, ns) ∧ TReach tw sem j ns (aboot n regs res w) a ∧
      Rel False c a ∧ ¬ ∃ ns' a', TStep tw sem ns' a a') := by
  induction k with
  | zero => exact .inl ⟨0, _, _, _, rfl, .zero _, boot_rel False b n regs res w hregs⟩
  | succ k ih =>
    rcases ih with ⟨m, c, ns, a, h1, h2, h3⟩ | ⟨j, m, c, ns, a, hj, h1, h2, h3, h4⟩
    · by_cases hex : ∃ ns' a', TStep tw sem ns' a a'
      · obtain ⟨ns', a', hs⟩ := hex
        have hf : ∀ v ∈ ns', fits v = true := fun v hv => hfits _ _ _ (.succ k _ _ _ _ _ h2 hs) v (by simp [hv])
        obtain ⟨m', c', g1, g2⟩ := stepT_rel (malloc := malloc) hmal hs h3 hf
        have hr : runT tw fits malloc sem (max m m') (k + 1) (boot b n regs res w) = some (c', ns ++ ns') := by
          unfold runT
          rw [runT_mono (Nat.le_max_left m m') h1]
          simp only [Option.bind_eq_bind, Option.bind_some]
          rw [stepT_mono g1 (Nat.le_max_right m m')]
          rfl
        obtain ⟨a3, g3, g4⟩ := g2 (.inr (hspan _ _ c' _ hr))
        exact .inl ⟨_, c', _, a3, hr, .succ k _ _ _ _ _ h2 g3, g4⟩
      · exact .inr ⟨k, m, c, ns, a, Nat.lt_succ_self k, h1, h2, h3, hex⟩
    · exact .inr ⟨j, m, c, ns, a, Nat.lt_succ_of_lt hj, h1, h2, h3, h4⟩

end Cora.VM
