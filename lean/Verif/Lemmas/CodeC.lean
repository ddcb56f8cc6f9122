import Verif.Lemmas.CodeText
/-
The C program that the code generator writes is well formed, and its functions do what the compiled functions do.
-/
open Spec.Lang Spec.C
namespace Cora.Compile

theorem fromUTF8_bytesOf (s : String) : String.fromUTF8? ⟨(bytesOf s).toArray⟩ = some s := by
  have : (⟨(bytesOf s).toArray⟩ : ByteArray) = s.toUTF8 := by
    simp [bytesOf]
  rw [this]
  unfold String.fromUTF8?
  exact dif_pos s.isValidUTF8

/-! ### names -/

theorem decDigits_inj {m n : Nat} (h : Reader.decDigits m = Reader.decDigits n) : m = n := by
  rw [← digitsVal_decDigits m, h, digitsVal_decDigits]

theorem group_inj {m n : Nat} (h : group m = group n) : m = n := decDigits_inj (List.append_cancel_left h)

theorem group_take (n : Nat) : (group n).take 6 = txt "clofun" := by
  rw [group, List.take_left' (by decide)]

theorem group_not_mem {l : List Bytes} (h : ∀ w ∈ l, w.take 6 ≠ txt "clofun") (n : Nat) : group n ∉ l :=
  fun hm => h _ hm (group_take n)

theorem isName_of {x : Bytes} (h1 : x ∉ keywords) (h2 : x ∉ typeNames) : isName x = true := by
  simp [isName, h1, h2]

theorem group_name (n : Nat) : isName (group n) = true :=
  isName_of (group_not_mem (by decide) n) (group_not_mem (by decide) n)

theorem group_header (n : Nat) : group n ∉ headers := group_not_mem (by decide) n

theorem group_part (n : Nat) : group n ∉ parts := group_not_mem (by decide) n

theorem operand_of_name {x : Bytes} (h : isName x = true) : isOperand x = true := by simp [isOperand, h]

theorem coraCall_header {n : Nat} (h : ¬ n > 4) : txt "coraCall" ++ Reader.decDigits n ∈
    [txt "coraCall0", txt "coraCall1", txt "coraCall2", txt "coraCall3", txt "coraCall4"] := by
  have : n = 0 ∨ n = 1 ∨ n = 2 ∨ n = 3 ∨ n = 4 := by omega
  rcases this with rfl | rfl | rfl | rfl | rfl <;> (rw [Reader.decDigits, if_pos (by decide)]; decide)

theorem builtin_facts {p : String} {k : Nat} (h : primArity p = some k) :
    txt (builtinName p) ∈ headers ∧ isName (txt (builtinName p)) = true ∧ primOf (txt (builtinName p)) = some p := by
  unfold primArity at h
  split at h <;> first | exact ⟨by decide, by decide, by decide⟩ | simp at h

/-! ### the form of the program -/

theorem cNum_wf (n : Int) : (cNum n).wf = true := by
  unfold cNum
  split <;> rfl

theorem wfL_iff (es : List Expr) : Expr.wfL es = true ↔ ∀ e ∈ es, e.wf = true := by
  induction es with
  | nil => simp [Expr.wfL]
  | cons e es ih => simp [Expr.wfL, ih]

theorem cBinding_wfO (g : Gen) (d : Datum) : (cBinding g d).wfO true = true := by
  simp only [cBinding, Expr.wfO, Expr.wfL, Expr.wf, cNum_wf, Bool.and_true]
  decide

theorem ident_name {g : Gen} {x : Spec.Lang.Sym} (h : ∃ b, genSym g x = some b ∧ Usable b) : Usable (ident g x) := by
  obtain ⟨b, hb, hu⟩ := h
  rw [ident, hb]
  exact hu

theorem cRef_wf {g : Gen} {vs : List Spec.Lang.Sym} (hv : AllNamed g vs) {r : Ref} (h : RefOk vs r) :
    (cRef g r).wfO false = true ∧ (cRef g r).lead = true := by
  cases r with
  | loc x =>
    have := (ident_name (hv x h)).name
    exact ⟨operand_of_name this, this⟩
  | cap i => exact ⟨by simp only [cRef, Expr.wfO, Expr.wfL, Expr.wf]; decide, rfl⟩

theorem cConst_wf (g : Gen) (d : Datum) : (cConst g d).wfO false = true ∧ (cConst g d).lead = true := by
  cases d with
  | sym x => exact ⟨cBinding_wfO g _, by simp only [cConst, cBinding, Expr.lead]; decide⟩
  | int n => exact ⟨by simp only [cConst, Expr.wfO, Expr.wfL, cNum_wf, Bool.and_true]; decide, rfl⟩
  | str s => exact ⟨by simp only [cConst, Expr.wfO, Expr.wfL, Expr.wf, Bool.and_true]; decide, rfl⟩
  | nil => exact ⟨rfl, rfl⟩
  | bool b => cases b <;> exact ⟨rfl, rfl⟩
  | cons => exact ⟨rfl, rfl⟩

theorem cSmp_wf {g : Gen} {n : Nat} {vs : List Spec.Lang.Sym} (hv : AllNamed g vs) {e : CSmp} (h : SmpOk g n vs e) :
    (cSmp g e).wfO false = true ∧ (cSmp g e).lead = true := by
  cases e with
  | const d => exact cConst_wf g d
  | global x =>
    refine ⟨?_, rfl⟩
    simp only [cSmp, Expr.wfO, Expr.wfL, wf_of_wfO (cBinding_wfO g _), Expr.wf, Bool.and_true]
    decide
  | ref r => exact cRef_wf hv h
  | closure label nargs nframe frees =>
    refine ⟨?_, rfl⟩
    have : Expr.wfL (frees.map (cRef g)) = true := by
      rw [wfL_iff]
      intro e he
      obtain ⟨r, hr, rfl⟩ := List.mem_map.mp he
      exact wf_of_wfO (cRef_wf hv (h.2 r hr)).1
    simp only [cSmp, Expr.wfO, Expr.wfL, Expr.wf, this, operand_of_name (group_name label), Bool.and_true, Bool.true_and]
    decide

theorem cSmps_wf {g : Gen} {n : Nat} {vs : List Spec.Lang.Sym} (hv : AllNamed g vs) {es : List CSmp} (h : ∀ e ∈ es, SmpOk g n vs e) :
    Expr.wfL (es.map (cSmp g)) = true := by
  rw [wfL_iff]
  intro e he
  obtain ⟨r, hr, rfl⟩ := List.mem_map.mp he
  exact wf_of_wfO (cSmp_wf hv (h r hr)).1

theorem cPrim_wf {g : Gen} {n : Nat} {vs : List Spec.Lang.Sym} (hv : AllNamed g vs) {p : String} {args : List CSmp}
    (ha : primArity p = some args.length) (h : ∀ e ∈ args, SmpOk g n vs e) : (cPrim g p args).wf = true := by
  have h1 := cSmps_wf hv h
  have h2 := (builtin_facts ha).2.1
  simp only [cPrim, Expr.wf, operand_of_name h2, Bool.true_and]
  split
  · simp only [List.cons_append, List.nil_append, Expr.wfL, Expr.wf, h1]; decide
  split
  · simp only [List.cons_append, List.nil_append, Expr.wfL, Expr.wf, h1]; decide
  split
  · simp only [List.cons_append, List.nil_append, Expr.wfL, Expr.wf, h1]; decide
  · simpa using h1

theorem cCall_wf {g : Gen} {n : Nat} {vs : List Spec.Lang.Sym} (hv : AllNamed g vs) {f : CSmp} {args : List CSmp}
    (hf : SmpOk g n vs f) (h : ∀ e ∈ args, SmpOk g n vs e) {k : Block} (hk : k.wf = true) : (cCall g f args k).wf = true := by
  have h1 := cSmps_wf hv h
  have h2 := wf_of_wfO (cSmp_wf hv hf).1
  unfold cCall
  split
  · simp only [Block.wf, h1, hk, Expr.wf, Expr.wfL, h2, Expr.lead, Bool.and_true, Bool.true_and]
    decide
  · rename_i hn
    have h3 : isName (txt "coraCall" ++ Reader.decDigits args.length) = true := by
      have := coraCall_header hn
      simp only [List.mem_cons, List.not_mem_nil, or_false] at this
      rcases this with h | h | h | h | h <;> (rw [h]; decide)
    simp only [Block.wf, h1, hk, Expr.wf, Expr.wfL, h2, Expr.lead, h3, operand_of_name h3, Bool.and_true, Bool.true_and]
    decide

theorem cSave_wf {g : Gen} {k : Block} (hk : k.wf = true) : ∀ {vs : List Spec.Lang.Sym} (i : Nat), AllNamed g vs → (cSave g i vs k).wf = true
  | [], _, _ => hk
  | v :: r, i, h => by
    have h1 := cSave_wf hk (i + 1) (fun x hx => h x (by simp [hx]) : AllNamed g r)
    have h2 := operand_of_name (ident_name (h v (by simp))).name
    simp only [cSave, Block.wf, h1, Expr.wf, Expr.lead, h2, Bool.and_true]
    decide

theorem cRecover_wf {g : Gen} {k : Block} (hk : k.wf = true) : ∀ {vs : List Spec.Lang.Sym} (i : Nat), AllNamed g vs → (cRecover g i vs k).wf = true
  | [], _, _ => hk
  | v :: r, i, h => by
    have h1 := cRecover_wf hk (i + 1) (fun x hx => h x (by simp [hx]) : AllNamed g r)
    have h2 := (ident_name (h v (by simp))).name
    simp only [cRecover, Block.wf, h1, Expr.wf, h2, Bool.and_true]
    decide

theorem cStm_wf {g : Gen} {n : Nat} {V : List Spec.Lang.Sym} (hV : VarsOk g V) (self : Nat) : ∀ (s : CStm) {vs here : List Spec.Lang.Sym},
    AllNamed g vs → AllNamed g here → StmOk g n V vs here s → (cStm g self s).wf = true := by
  intro s
  induction s with
  | ret e =>
    intro vs here h1 h2 h
    have := wf_of_wfO (cSmp_wf (h2.append h1) h).1
    simp only [cStm, Block.wf, Expr.wf, Expr.wfL, Expr.lead, this, Bool.and_true]
    decide
  | tail f args =>
    intro vs here h1 h2 h
    have := cCall_wf (k := .ret .done) (h2.append h1) h.1 h.2 rfl
    simp only [cStm, Block.wf, Expr.wf, this, Bool.and_true]
    decide
  | call f args label live =>
    intro vs here h1 h2 h
    have := cCall_wf (k := .ret .done) (h2.append h1) h.1 h.2.1 rfl
    rw [cStm]
    refine cSave_wf ?_ 1 fun x hx => (h2.append h1) x (h.2.2 x hx)
    simp only [Block.wf, Expr.wf, Expr.wfL, Expr.lead, this, operand_of_name (group_name self), Bool.and_true]
    decide
  | bind x e k ih =>
    intro vs here h1 h2 h
    have hx := hV.usable x h.1
    have := ih h1 (by intro y hy; rcases List.mem_cons.mp hy with rfl | hy; exact hx; exact h2 y hy) h.2.2.2
    have he := wf_of_wfO (cSmp_wf ((h2.append h1).filter _) h.2.2.1).1
    simp only [cStm, Block.wf, this, he, (ident_name hx).name, Bool.and_true]
    decide
  | prim x p args k ih =>
    intro vs here h1 h2 h
    have hx := hV.usable x h.1
    have := ih h1 (by intro y hy; rcases List.mem_cons.mp hy with rfl | hy; exact hx; exact h2 y hy) h.2.2.2.2
    have he := cPrim_wf ((h2.append h1).filter _) h.2.2.1 h.2.2.2.1
    simp only [cStm, Block.wf, this, he, (ident_name hx).name, Bool.and_true]
    decide
  | seq e k ih =>
    intro vs here h1 h2 h
    have := cSmp_wf (h2.append h1) h.1
    simp [cStm, Block.wf, ih h1 h2 h.2, wf_of_wfO this.1, this.2]
  | ite e a b iha ihb =>
    intro vs here h1 h2 h
    have := cSmp_wf (h2.append h1) h.1
    have ha := iha (h2.append h1) (by intro x hx; simp at hx) h.2.1
    have hb := ihb (h2.append h1) (by intro x hx; simp at hx) h.2.2
    simp only [cStm, Block.wf, Expr.wf, Expr.wfO, this.1, ha, hb, Bool.and_true]
    decide

theorem cBody_wf {g : Gen} {n : Nat} {l : Lam} (self : Nat) (h : LamOk g n l) : (cBody g self l).wf := by
  obtain ⟨V, hV, h1, -, h2, h3⟩ := h.ok
  have hc : ∀ (cs : List Cont) (i : Nat), (∀ c ∈ cs, c ∈ l.conts) → ∀ c ∈ cConts g self i cs, c.2.wf = true := by
    intro cs
    induction cs with
    | nil => intro i _ c hc; simp [cConts] at hc
    | cons d cs ih =>
      intro i hm c hc
      rcases List.mem_cons.mp hc with rfl | hc
      · obtain ⟨h4, h5, -, h6⟩ := h3 d (hm d (by simp))
        have := cStm_wf hV self d.body (vs := []) (by intro x hx; simp at hx)
          (by intro x hx; rcases List.mem_cons.mp hx with rfl | hx; exact hV.usable _ h4; exact hV.usable x (h5 x hx)) h6
        have := cRecover_wf this 1 (fun x hx => hV.usable x (h5 x hx) : AllNamed g d.live)
        simp only [cCont, Block.wf, this, (ident_name (hV.usable _ h4)).name, Expr.wf, Bool.and_true]
        decide
      · exact ih (i + 1) (fun x hx => hm x (by simp [hx])) c hc
  refine ⟨by decide, ?_⟩
  intro c hcm
  rcases List.mem_cons.mp hcm with rfl | hcm
  · exact cRecover_wf (cStm_wf hV self l.body (vs := []) (by intro x hx; simp at hx) (fun x hx => hV.usable x (h1 x hx)) h2) 1
      (fun x hx => hV.usable x (h1 x hx))
  · exact hc l.conts 1 (fun _ h => h) c hcm

theorem cTable_wf {g : Gen} {k : Block} (hk : k.wf = true) : ∀ (ds : List Datum) (i : Nat), (cTable g i ds k).wf = true
  | [], _ => hk
  | d :: r, i => by
    simp only [cTable, Block.wf, cTable_wf hk r (i + 1), Expr.wf, Expr.wfL, Expr.lead, Bool.and_true]
    decide

theorem cEntry_wf (g : Gen) (label : Nat) : (cEntry g label).wf = true := by
  have : (Block.expr (.call (txt "addPackage") [.id (txt "co"), .id (txt "packageID"), .id (txt "__symbolTable")])
          (.assign (.dot (.arrow (txt "co") (txt "ctx")) (txt "fn")) (.id (group label))
            (.assign (.dot (.arrow (txt "co") (txt "ctx")) (txt "label")) (.num 0) .done))).wf = true := by
    simp only [Block.wf, Expr.wf, operand_of_name (group_name label)]
    decide
  simp only [cEntry, Block.wf, cTable_wf this, Expr.wf, Expr.wfL, Expr.wfO]
  decide

theorem cAll_mem {α : Type} {a : α} : ∀ {f : Nat → Lam → α} {lams : List Lam}, a ∈ cAll f lams → ∃ i, ∃ l ∈ lams, a = f i l
  | f, [], h => by simp [cAll] at h
  | f, l :: r, h => by
    rw [cAll] at h
    rcases List.mem_append.mp h with h | h
    · obtain ⟨i, l', h1, h2⟩ := cAll_mem h
      exact ⟨i + 1, l', by simp [h1], h2⟩
    · exact ⟨0, l, by simp, by simpa using h⟩

theorem cFile_wf {g : Gen} {lams : List Lam} (h : FileOk g lams) : ∀ i ∈ cFile g lams, i.wf := by
  intro i hi
  rcases List.mem_cons.mp hi with rfl | hi
  · exact ⟨by decide, rfl⟩
  rcases List.mem_append.mp hi with hi | hi
  · obtain ⟨j, l, hl, rfl⟩ := cAll_mem hi
    exact group_name j
  rcases List.mem_cons.mp hi with rfl | hi
  · refine ⟨by decide, cEntry_wf g _, fun r => ?_⟩
    simp only [cEntry, Block.toks, List.cons_append, List.head?_cons]
    decide
  · obtain ⟨j, l, hl, rfl⟩ := cAll_mem hi
    exact ⟨group_name j, cBody_wf j (h.lam l hl)⟩

theorem parse_file {g : Gen} {lams : List Lam} (h : FileOk g lams) :
    ∃ b, generateC g lams = some b ∧ Spec.C.parse b = some (cFile g lams) := by
  obtain ⟨b, hb, ht⟩ := tokens_file h
  exact ⟨b, hb, parse_of_tokens (cFile_wf h) ht⟩

/-! ### declarations -/

/-- the names declared outside of functions -/
structure Declared (n : Nat) (fs : List Bytes) : Prop where
  header : ∀ h ∈ headers, h ∈ fs
  package : txt "packageID" ∈ fs
  group : ∀ l, l < n → group l ∈ fs

/-- the C variables in scope where the variables `vs` of the program are -/
structure Scope (g : Gen) (vs : List Spec.Lang.Sym) (cs : List Bytes) : Prop where
  fresh : ∀ c ∈ cs, c ∉ headers
  co : txt "co" ∈ cs
  regs : txt "R" ∈ cs
  var : ∀ x ∈ vs, ident g x ∈ cs

theorem Scope.call {g : Gen} {vs : List Spec.Lang.Sym} {cs fs : List Bytes} {n : Nat} (hs : Scope g vs cs) (hd : Declared n fs) {f : Bytes}
    (hf : f ∈ headers) (args : List Expr) (ha : Expr.oks fs cs args = true) : Expr.ok fs cs (.call f args) = true := by
  have h1 := hd.header f hf
  have h2 : f ∉ cs := fun h => hs.fresh f h hf
  simp [Expr.ok, h1, h2, ha]

theorem Scope.mono {g : Gen} {vs us : List Spec.Lang.Sym} {cs : List Bytes} (hs : Scope g vs cs) (h : ∀ x ∈ us, x ∈ vs) : Scope g us cs :=
  { hs with var := fun x hx => hs.var x (h x hx) }

theorem Scope.add {g : Gen} {vs : List Spec.Lang.Sym} {cs : List Bytes} (hs : Scope g vs cs) {c : Bytes} (hc : c ∉ headers) :
    Scope g vs (c :: cs) where
  fresh := by intro d hd; rcases List.mem_cons.mp hd with rfl | hd; exact hc; exact hs.fresh d hd
  co := by simp [hs.co]
  regs := by simp [hs.regs]
  var := fun x hx => by simp [hs.var x hx]

theorem Scope.cons {g : Gen} {vs : List Spec.Lang.Sym} {cs : List Bytes} {c : Bytes} (hs : Scope g vs (c :: cs)) {x : Spec.Lang.Sym}
    (hc : c = ident g x) : Scope g (x :: vs) (c :: cs) where
  fresh := hs.fresh
  co := hs.co
  regs := hs.regs
  var := by
    intro y hy
    rcases List.mem_cons.mp hy with rfl | hy
    · simp [hc]
    · exact hs.var y hy

theorem oks_iff (fs vs : List Bytes) (es : List Expr) : Expr.oks fs vs es = true ↔ ∀ e ∈ es, Expr.ok fs vs e = true := by
  induction es with
  | nil => simp [Expr.oks]
  | cons e es ih => simp [Expr.oks, ih]

theorem cNum_ok (fs vs : List Bytes) (n : Int) : Expr.ok fs vs (cNum n) = true := by
  unfold cNum
  split <;> rfl

section
variable {g : Gen} {n : Nat} {vs : List Spec.Lang.Sym} {cs fs : List Bytes} (hs : Scope g vs cs) (hd : Declared n fs)
include hs hd

theorem cBinding_ok (d : Datum) : Expr.ok fs cs (cBinding g d) = true := by
  apply hs.call hd (by decide)
  simp [Expr.oks, Expr.ok, cNum_ok, hs.co, hd.package]

theorem cConst_ok (d : Datum) : Expr.ok fs cs (cConst g d) = true := by
  cases d with
  | sym x => simpa [cConst, Expr.ok] using cBinding_ok hs hd (.sym x)
  | int n => exact hs.call hd (by decide) _ (by simp [Expr.oks, cNum_ok])
  | str s => exact hs.call hd (by decide) _ (by simp [Expr.oks, Expr.ok, hs.co])
  | nil => simp [cConst, Expr.ok, hd.header (txt "Nil") (by decide)]
  | bool b =>
    cases b
    · simp [cConst, Expr.ok, hd.header (txt "False") (by decide)]
    · simp [cConst, Expr.ok, hd.header (txt "True") (by decide)]
  | cons => simp [cConst, Expr.ok, hd.header (txt "Nil") (by decide)]

theorem cRef_ok {r : Ref} (h : RefOk vs r) : Expr.ok fs cs (cRef g r) = true := by
  cases r with
  | loc x => simp [cRef, Expr.ok, hs.var x h]
  | cap i => exact hs.call hd (by decide) _ (by simp [Expr.oks, Expr.ok, hs.regs])

theorem cSmp_ok {e : CSmp} (h : SmpOk g n vs e) : Expr.ok fs cs (cSmp g e) = true := by
  cases e with
  | const d => exact cConst_ok hs hd d
  | global x => exact hs.call hd (by decide) _ (by simp [Expr.oks, Expr.ok, hs.co, cBinding_ok hs hd])
  | ref r => exact cRef_ok hs hd h
  | closure label nargs nframe frees =>
    refine hs.call hd (by decide) _ ?_
    have : Expr.oks fs cs (frees.map (cRef g)) = true := by
      rw [oks_iff]
      intro e he
      obtain ⟨r, hr, rfl⟩ := List.mem_map.mp he
      exact cRef_ok hs hd (h.2 r hr)
    simp [Expr.oks, Expr.ok, hs.co, hd.group label h.1, this]

theorem cSmps_ok {es : List CSmp} (h : ∀ e ∈ es, SmpOk g n vs e) : Expr.oks fs cs (es.map (cSmp g)) = true := by
  rw [oks_iff]
  intro e he
  obtain ⟨r, hr, rfl⟩ := List.mem_map.mp he
  exact cSmp_ok hs hd (h r hr)

theorem cPrim_ok {p : String} {args : List CSmp} (ha : primArity p = some args.length) (h : ∀ e ∈ args, SmpOk g n vs e) :
    Expr.ok fs cs (cPrim g p args) = true := by
  refine hs.call hd (builtin_facts ha).1 _ ?_
  have := cSmps_ok hs hd h
  split
  · simp [Expr.oks, Expr.ok, hs.co, this]
  split
  · simp [Expr.oks, Expr.ok, hs.co, this]
  split
  · simp [Expr.oks, Expr.ok, hs.co, this]
  · simpa using this

end

theorem cCall_ok {g : Gen} {n : Nat} {vs : List Spec.Lang.Sym} {outer here fs : List Bytes} (hs : Scope g vs (here ++ outer))
    (hd : Declared n fs) (hargs : txt "__args" ∉ here) {f : CSmp} {args : List CSmp} (hf : SmpOk g n vs f) (h : ∀ e ∈ args, SmpOk g n vs e) :
    (cCall g f args (.ret .done)).ok fs outer here = true := by
  unfold cCall
  split
  · have hs' : Scope g vs (txt "__args" :: here ++ outer) := hs.add (by decide)
    have h1 := cSmps_ok hs' hd h
    have h2 : Expr.ok fs (txt "__args" :: here ++ outer)
        (.call (txt "coraCall") [.id (txt "co"), cSmp g f, .num args.length, .id (txt "__args")]) = true := by
      refine hs'.call hd (by decide) _ ?_
      have := hs'.co
      simp only [Expr.oks, cSmp_ok hs' hd hf, Expr.ok, List.contains_eq_mem, this]
      simp
    simp only [Block.ok, h1, h2]
    simp [hargs]
  · rename_i hn
    have h1 := cSmps_ok hs hd h
    have hh : txt "coraCall" ++ Reader.decDigits args.length ∈ headers := by
      have := coraCall_header hn
      have sub : ∀ x ∈ [txt "coraCall0", txt "coraCall1", txt "coraCall2", txt "coraCall3", txt "coraCall4"], x ∈ headers := by decide
      exact sub _ this
    have h2 := hs.call hd hh (.id (txt "co") :: cSmp g f :: args.map (cSmp g)) (by
      have := hs.co
      simp only [Expr.oks, cSmp_ok hs hd hf, Expr.ok, List.contains_eq_mem, h1]
      simp [this])
    simp only [Block.ok, h2]
    rfl

theorem cSave_ok {g : Gen} {vs : List Spec.Lang.Sym} {outer here fs : List Bytes} (hs : Scope g vs (here ++ outer)) {k : Block}
    (hk : k.ok fs outer here = true) : ∀ (live : List Spec.Lang.Sym) (i : Nat), (∀ x ∈ live, x ∈ vs) → (cSave g i live k).ok fs outer here = true
  | [], _, _ => hk
  | x :: r, i, h => by
    have h1 := cSave_ok hs hk r (i + 1) fun y hy => h y (by simp [hy])
    have h2 := hs.var x (h x (by simp))
    have h3 := hs.regs
    simp only [cSave, Block.ok, Expr.ok, h1, List.contains_eq_mem]
    simp [h2, h3]

theorem cRecover_ok {g : Gen} {outer fs : List Bytes} {k : Block} (hR : txt "R" ∈ outer) :
    ∀ (live : List Spec.Lang.Sym) (i : Nat) (here : List Bytes), (∀ x ∈ live, ident g x ∉ here) →
    (live.map (ident g)).Nodup → k.ok fs outer ((live.map (ident g)).reverse ++ here) = true → (cRecover g i live k).ok fs outer here = true
  | [], _, _, _, _, hk => hk
  | x :: r, i, here, h, hn, hk => by
    have hn' := List.nodup_cons.mp hn
    have h1 := cRecover_ok (k := k) (fs := fs) hR r (i + 1) (ident g x :: here)
      (by
        intro y hy hm
        rcases List.mem_cons.mp hm with e | hm
        · exact hn'.1 (e ▸ List.mem_map_of_mem hy)
        · exact h y (by simp [hy]) hm)
      hn'.2 (by simpa using hk)
    simp only [cRecover, Block.ok, Expr.ok, h1, List.contains_eq_mem]
    simp [hR, h x (by simp)]

theorem VarsOk.ident_inj {g : Gen} {V : List Spec.Lang.Sym} (hV : VarsOk g V) {x y : Spec.Lang.Sym} (hx : x ∈ V) (hy : y ∈ V)
    (h : ident g x = ident g y) : x = y := by
  apply hV.inj x hx y hy
  obtain ⟨a, ha, -⟩ := hV.usable x hx
  obtain ⟨b, hb, -⟩ := hV.usable y hy
  rw [ident, ident, ha, hb] at h
  rw [ha, hb]
  exact congrArg some h

theorem VarsOk.nodup {g : Gen} {V : List Spec.Lang.Sym} (hV : VarsOk g V) {xs : List Spec.Lang.Sym} (hx : ∀ x ∈ xs, x ∈ V) (h : xs.Nodup) :
    (xs.map (ident g)).Nodup := by
  rw [List.nodup_iff_pairwise_ne, List.pairwise_map]
  rw [List.nodup_iff_pairwise_ne] at h
  refine h.imp_of_mem ?_
  intro a b ha hb hab e
  exact hab (hV.ident_inj (hx a ha) (hx b hb) e)

theorem cStm_ok {g : Gen} {n : Nat} {V : List Spec.Lang.Sym} (hV : VarsOk g V) {fs : List Bytes} (hd : Declared n fs) {self : Nat} (hself : self < n) :
    ∀ (s : CStm) {vs here : List Spec.Lang.Sym} {outer cs : List Bytes}, Scope g (here ++ vs) (cs ++ outer) → (∀ c ∈ cs, ∃ x ∈ here, c = ident g x) →
    (∀ x ∈ here, x ∈ V) → StmOk g n V vs here s → (cStm g self s).ok fs outer cs = true := by
  have args_not : ∀ {here : List Spec.Lang.Sym} {cs : List Bytes}, (∀ c ∈ cs, ∃ x ∈ here, c = ident g x) → (∀ x ∈ here, x ∈ V) → txt "__args" ∉ cs := by
    intro here cs h1 h2 h
    obtain ⟨x, hx, e⟩ := h1 _ h
    have := (ident_name (hV.usable x (h2 x hx))).part
    rw [← e] at this
    exact this (by decide)
  intro s
  induction s with
  | ret e =>
    intro vs here outer cs hs hc hh h
    have := hs.call hd (f := txt "coraReturn") (by decide) [.id (txt "co"), cSmp g e] (by
      have := hs.co
      simp only [Expr.oks, cSmp_ok hs hd h, Expr.ok, List.contains_eq_mem]
      simp [this])
    simp [cStm, Block.ok, this]
  | tail f args =>
    intro vs here outer cs hs hc hh h
    have h1 := cCall_ok hs hd (args_not hc hh) h.1 h.2
    have h2 := hs.co
    have h3 := hs.regs
    simp only [cStm, Block.ok, Expr.ok, h1, List.contains_eq_mem]
    simp [h2, h3]
  | call f args label live =>
    intro vs here outer cs hs hc hh h
    refine cSave_ok hs ?_ live 1 h.2.2
    have h1 := cCall_ok hs hd (args_not hc hh) h.1 h.2.1
    have h2 := hs.call hd (f := txt "saveCont") (by decide) [.id (txt "co"), .id (group self), .num label, .id (txt "R")] (by
      have := hs.co
      have := hs.regs
      have := hd.group self hself
      simp only [Expr.oks, Expr.ok, List.contains_eq_mem]
      simp [*])
    simp [Block.ok, h1, h2]
  | bind x e k ih =>
    intro vs here outer cs hs hc hh h
    have hu := ident_name (hV.usable x h.1)
    have hs' := hs.add hu.header
    have h1 : ident g x ∉ cs := by
      intro hm
      obtain ⟨y, hy, e⟩ := hc _ hm
      exact h.2.1 (hV.ident_inj h.1 (hh y hy) e ▸ hy)
    have hk := ih (vs := vs) (here := x :: here) (outer := outer) (cs := ident g x :: cs)
      (hs'.cons rfl)
      (by intro c hm; rcases List.mem_cons.mp hm with rfl | hm; exact ⟨x, by simp, rfl⟩; obtain ⟨y, hy, e⟩ := hc c hm; exact ⟨y, by simp [hy], e⟩)
      (by intro y hy; rcases List.mem_cons.mp hy with rfl | hy; exact h.1; exact hh y hy) h.2.2.2
    have he := cSmp_ok (hs'.mono fun y hy => (List.mem_filter.mp hy).1) hd h.2.2.1
    simp only [cStm, Block.ok, hk, List.cons_append, he]
    simp [h1]
  | prim x p args k ih =>
    intro vs here outer cs hs hc hh h
    have hu := ident_name (hV.usable x h.1)
    have hs' := hs.add hu.header
    have h1 : ident g x ∉ cs := by
      intro hm
      obtain ⟨y, hy, e⟩ := hc _ hm
      exact h.2.1 (hV.ident_inj h.1 (hh y hy) e ▸ hy)
    have hk := ih (vs := vs) (here := x :: here) (outer := outer) (cs := ident g x :: cs)
      (hs'.cons rfl)
      (by intro c hm; rcases List.mem_cons.mp hm with rfl | hm; exact ⟨x, by simp, rfl⟩; obtain ⟨y, hy, e⟩ := hc c hm; exact ⟨y, by simp [hy], e⟩)
      (by intro y hy; rcases List.mem_cons.mp hy with rfl | hy; exact h.1; exact hh y hy) h.2.2.2.2
    have he := cPrim_ok (hs'.mono fun y hy => (List.mem_filter.mp hy).1) hd h.2.2.1 h.2.2.2.1
    simp only [cStm, Block.ok, hk, List.cons_append, he]
    simp [h1]
  | seq e k ih =>
    intro vs here outer cs hs hc hh h
    simp [cStm, Block.ok, cSmp_ok hs hd h.1, ih hs hc hh h.2]
  | ite e a b iha ihb =>
    intro vs here outer cs hs hc hh h
    have he := cSmp_ok hs hd h.1
    have ha := iha (vs := here ++ vs) (here := []) (outer := cs ++ outer) (cs := []) hs (by simp) (by simp) h.2.1
    have hb := ihb (vs := here ++ vs) (here := []) (outer := cs ++ outer) (cs := []) hs (by simp) (by simp) h.2.2
    have ht := hd.header (txt "True") (by decide)
    simp only [cStm, Block.ok, Expr.ok, he, ha, hb, List.contains_eq_mem]
    simp [ht]

theorem param_scope (g : Gen) : Scope g [] paramNames where
  fresh := by decide
  co := by decide
  regs := by decide
  var := by simp

theorem block_ok {g : Gen} {n : Nat} {V : List Spec.Lang.Sym} (hV : VarsOk g V) {fs : List Bytes} (hd : Declared n fs) {self : Nat} (hself : self < n)
    {xs : List Spec.Lang.Sym} (hx : ∀ x ∈ xs, x ∈ V) {cs : List Bytes} (h1 : ∀ x ∈ xs, ident g x ∈ cs) (h2 : ∀ c ∈ cs, ∃ x ∈ xs, c = ident g x)
    {s : CStm} (hs : StmOk g n V [] xs s) : (cStm g self s).ok fs paramNames cs = true := by
  refine cStm_ok hV hd hself s (vs := []) (here := xs) ?_ h2 hx hs
  have hp := param_scope g
  constructor
  · intro c hc
    rcases List.mem_append.mp hc with h | h
    · obtain ⟨x, hm, rfl⟩ := h2 c h
      exact (ident_name (hV.usable x (hx x hm))).header
    · exact hp.fresh c h
  · simp [hp.co]
  · simp [hp.regs]
  · intro x hm
    simp at hm
    simp [h1 x hm]

theorem cConts_fst (g : Gen) (self : Nat) : ∀ (cs : List Cont) (i : Nat), (cConts g self i cs).map (·.1) = List.range' i cs.length
  | [], _ => rfl
  | c :: r, i => by simp [cConts, cConts_fst g self r (i + 1), List.range'_succ]

theorem cBody_ok {g : Gen} {n : Nat} {l : Lam} (h : LamOk g n l) {fs : List Bytes} (hd : Declared n fs) {self : Nat} (hself : self < n) :
    (cBody g self l).ok fs = true := by
  obtain ⟨V, hV, h1, hn, h2, h3⟩ := h.ok
  have hcase0 : (cRecover g 1 l.params (cStm g self l.body)).ok fs paramNames [] = true := by
    refine cRecover_ok (by decide) l.params 1 [] (by simp) (hV.nodup h1 hn) ?_
    refine block_ok hV hd hself h1 ?_ ?_ h2
    · intro x hx; simp; exact ⟨x, hx, rfl⟩
    · intro c hc
      simp at hc
      obtain ⟨x, hx, e⟩ := hc
      exact ⟨x, hx, e.symm⟩
  have hcases : ∀ (cs : List Cont) (i : Nat), (∀ c ∈ cs, c ∈ l.conts) → (cConts g self i cs).all (fun c => c.2.ok fs paramNames []) = true := by
    intro cs
    induction cs with
    | nil => intro i _; rfl
    | cons d cs ih =>
      intro i hm
      obtain ⟨h4, h5, h6, h7⟩ := h3 d (hm d (by simp))
      have hxs : ∀ x ∈ d.val :: d.live, x ∈ V := by
        intro x hx; rcases List.mem_cons.mp hx with rfl | hx; exact h4; exact h5 x hx
      have hnod := List.nodup_cons.mp (hV.nodup hxs h6)
      have : (cRecover g 1 d.live (cStm g self d.body)).ok fs paramNames [ident g d.val] = true := by
        refine cRecover_ok (by decide) d.live 1 _ ?_ hnod.2 ?_
        · intro x hx hm
          simp at hm
          exact hnod.1 (hm ▸ List.mem_map_of_mem hx)
        · refine block_ok hV hd hself hxs ?_ ?_ h7
          · intro x hx
            rcases List.mem_cons.mp hx with rfl | hx
            · simp
            · simp only [List.mem_append, List.mem_reverse, List.mem_map]
              exact .inl ⟨x, hx, rfl⟩
          · intro c hc
            simp only [List.mem_append, List.mem_reverse, List.mem_map, List.mem_singleton] at hc
            rcases hc with ⟨x, hx, e⟩ | e
            · exact ⟨x, by simp [hx], e.symm⟩
            · exact ⟨d.val, by simp, e⟩
      have hd' : (cCont g self d).ok fs paramNames [] = true := by
        simp only [cCont, Block.ok, this, Expr.ok, List.contains_eq_mem]
        simp
        exact .inr (by decide)
      simp only [cConts, List.all_cons, hd', ih (i + 1) (fun x hx => hm x (by simp [hx])), Bool.and_self]
  have hnodup : (((0, cRecover g 1 l.params (cStm g self l.body)) :: cConts g self 1 l.conts).map (·.1)).Nodup := by
    rw [List.map_cons, cConts_fst]
    have : 0 :: List.range' 1 l.conts.length = List.range' 0 (l.conts.length + 1) := by rw [List.range'_succ]
    rw [this]
    exact List.nodup_range'
  simp only [cBody, Body.ok, List.all_cons, hcase0, hcases l.conts 1 (fun _ h => h), Bool.and_self, Bool.and_true, hnodup, decide_true]
  rw [Expr.ok, show paramNames.contains (txt "label") = true by decide]
  rfl

theorem cTable_ok {g : Gen} {fs outer here : List Bytes} (h1 : ∀ h ∈ headers, h ∈ fs) (h2 : txt "co" ∈ here ++ outer)
    (h3 : txt "__symbolTable" ∈ here ++ outer) (h4 : ∀ c ∈ here ++ outer, c ∉ headers) {k : Block} (hk : k.ok fs outer here = true) :
    ∀ (ds : List Datum) (i : Nat), (cTable g i ds k).ok fs outer here = true
  | [], _ => hk
  | d :: r, i => by
    have ih := cTable_ok (g := g) h1 h2 h3 h4 hk r (i + 1)
    have a1 := h1 (txt "bindSymbol") (by decide)
    have a2 := h1 (txt "intern") (by decide)
    have b1 : txt "bindSymbol" ∉ here ++ outer := fun h => h4 _ h (by decide)
    have b2 : txt "intern" ∉ here ++ outer := fun h => h4 _ h (by decide)
    simp only [cTable, Block.ok, Expr.ok, Expr.oks, ih, List.contains_eq_mem]
    simp only [h2, h3, a1, a2, b1, b2, decide_true, decide_false]
    rfl

theorem cEntry_ok {g : Gen} {n : Nat} {fs : List Bytes} (hd : Declared n fs) {label : Nat} (hl : label < n) :
    (Body.plain (cEntry g label)).ok fs = true := by
  have e : ∀ x, (fs.contains x = true) ↔ x ∈ fs := fun x => by simp
  have h0 : ∀ h, h ∈ headers → fs.contains h = true := fun h hm => (e h).mpr (hd.header h hm)
  have h1 : fs.contains (txt "packageID") = true := (e _).mpr hd.package
  have h2 : fs.contains (group label) = true := (e _).mpr (hd.group label hl)
  have hk : (Block.expr (.call (txt "addPackage") [.id (txt "co"), .id (txt "packageID"), .id (txt "__symbolTable")])
          (.assign (.dot (.arrow (txt "co") (txt "ctx")) (txt "fn")) (.id (group label))
            (.assign (.dot (.arrow (txt "co") (txt "ctx")) (txt "label")) (.num 0) .done))).ok fs [] (txt "__symbolTable" :: paramNames) = true := by
    simp only [Block.ok, Expr.ok, Expr.oks, h0 (txt "addPackage") (by decide), h1, h2, Bool.or_true,
      show (txt "__symbolTable" :: paramNames ++ []).contains (txt "co") = true by decide,
      show (txt "__symbolTable" :: paramNames ++ []).contains (txt "__symbolTable") = true by decide, Bool.true_or]
    decide
  have ht := cTable_ok (g := g) hd.header (by decide) (by decide) (by decide) hk g.globals 0
  simp only [Body.ok, cEntry, Block.ok, Expr.ok, Expr.oks, ht, h0 (txt "packageIDAlloc") (by decide), h0 (txt "malloc") (by decide),
    h0 (txt "sizeof") (by decide), h0 (txt "Binding") (by decide), h1, Bool.or_true, Bool.true_and, Bool.and_true]
  decide

/-- the items of one kind -/
theorem okFile_append (b : List Item) : ∀ (a : List Item) (fs : List Bytes),
    okFile fs (a ++ b) = (okFile fs a && okFile ((a.map Item.name).reverse ++ fs) b)
  | [], fs => by simp [okFile]
  | i :: a, fs => by
    rw [List.cons_append, okFile.eq_def fs (i :: (a ++ b)), okFile.eq_def fs (i :: a)]
    simp only [okFile_append b a]
    simp [Bool.and_assoc]

theorem okFile_protos (f : Nat → Lam → Bytes) : ∀ (lams : List Lam) (fs : List Bytes),
    okFile fs (cAll (fun i l => Item.proto (f i l)) lams) = true := by
  intro lams
  induction lams generalizing f with
  | nil => intro fs; rfl
  | cons l r ih =>
    intro fs
    rw [cAll, okFile_append]
    simp [ih (fun i => f (i + 1)) fs, okFile]

theorem cAll_map {α β : Type} (h : α → β) : ∀ (f : Nat → Lam → α) (lams : List Lam), (cAll f lams).map h = cAll (fun i l => h (f i l)) lams
  | f, [] => rfl
  | f, l :: r => by simp [cAll, cAll_map h (fun i => f (i + 1)) r]

theorem cAll_reverse {α : Type} : ∀ (f : Nat → Lam → α) (lams : List Lam), (cAll f lams).reverse = lams.mapIdx f
  | f, [] => rfl
  | f, l :: r => by
    rw [cAll, List.reverse_append, cAll_reverse (fun i => f (i + 1)) r, List.mapIdx_cons]
    rfl

theorem okFile_funs {n : Nat} (f : Nat → Lam → Body) (nm : Nat → Bytes) : ∀ (lams : List Lam) (m : Nat) (fs : List Bytes),
    (∀ i l, i + m < n → l ∈ lams → ∀ fs, Declared n fs → (f i l).ok fs = true) → lams.length + m = n → Declared n fs →
    okFile fs (cAll (fun i l => Item.func true (nm i) (f i l)) lams) = true := by
  intro lams
  induction lams generalizing f nm with
  | nil => intro m fs _ _ _; rfl
  | cons l r ih =>
    intro m fs h hn hd
    have hadd : ∀ (cs fs : List Bytes), Declared n fs → Declared n (cs ++ fs) := fun cs fs hd =>
      ⟨fun x hx => by simp [hd.header x hx], by simp [hd.package], fun l hl => by simp [hd.group l hl]⟩
    rw [cAll, okFile_append, Bool.and_eq_true]
    constructor
    · refine ih (fun i => f (i + 1)) (fun i => nm (i + 1)) (m + 1) fs (fun i l' hi hl => h (i + 1) l' (by omega) (by simp [hl])) ?_ hd
      simp at hn; omega
    · simp only [okFile, Bool.and_true]
      exact h 0 l (by simp at hn; omega) (by simp) _ (hadd [_] _ (hadd _ fs hd))

theorem cFile_ok {g : Gen} {lams : List Lam} (h : FileOk g lams) : okFile headers (cFile g lams) = true := by
  have hd : Declared lams.length (((cAll (fun i _ => Item.proto (group i)) lams).map Item.name).reverse ++ txt "packageID" :: headers) := by
    refine ⟨fun x hx => by simp [hx], by simp, fun l hl => ?_⟩
    rw [cAll_map, cAll_reverse]
    refine List.mem_append_left _ ?_
    rw [List.mem_mapIdx]
    exact ⟨l, hl, rfl⟩
  have hadd : ∀ {c : Bytes} {fs : List Bytes}, Declared lams.length fs → Declared lams.length (c :: fs) := fun hd =>
    ⟨fun x hx => by simp [hd.header x hx], by simp [hd.package], fun l hl => by simp [hd.group l hl]⟩
  have hpos : 0 < lams.length := List.length_pos_iff.mpr h.nonempty
  rw [cFile, okFile]
  simp only [Expr.ok, Bool.true_and]
  rw [okFile_append, okFile_protos, Bool.true_and, okFile]
  simp only [Item.name, Bool.and_eq_true]
  exact ⟨cEntry_ok (hadd hd) (by omega),
    okFile_funs (n := lams.length) (fun i l => cBody g i l) group lams 0 _ (fun i l hi hl fs hd => cBody_ok (h.lam l hl) hd (by omega)) rfl (hadd hd)⟩

end Cora.Compile
