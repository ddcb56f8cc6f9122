import Verif.Lemmas.CodeC
/-
The functions of the generated C program do what the compiled functions do.
-/
open Spec.Lang Spec.C
namespace Cora.Compile
variable {W : Type}

/-- the symbol of an entry of the table -/
def symOf : Datum → Spec.Lang.Sym
  | .sym x => x
  | _ => .named ""

/-- a loaded file for the program -/
structure Loaded (g : Gen) (n : Nat) (u : Unit_) : Prop where
  table : u.table = g.globals.map symOf
  funs : ∀ l, l < n → u.funs (group l) = some l

/-- the C variables `ce` for the variables `vs` of the program -/
structure LocalsRel (g : Gen) (vs : List Spec.Lang.Sym) (ce : Locals) (ρ : Spec.Lang.Sym → Option MVal) : Prop where
  co : lookup (txt "co") ce = some (some .co)
  regs : lookup (txt "R") ce = some (some .regs)
  header : ∀ h ∈ headers, lookup h ce = none
  package : lookup (txt "packageID") ce = none
  group : ∀ n, lookup (group n) ce = none
  var : ∀ x ∈ vs, ∃ v, ρ x = some v ∧ lookup (ident g x) ce = some (some (.obj v))

theorem LocalsRel.mono {g : Gen} {vs us : List Spec.Lang.Sym} {ce : Locals} {ρ : Spec.Lang.Sym → Option MVal} (h : LocalsRel g vs ce ρ)
    (hs : ∀ x ∈ us, x ∈ vs) : LocalsRel g us ce ρ := { h with var := fun x hx => h.var x (hs x hx) }

/-- another C variable -/
theorem LocalsRel.add {g : Gen} {vs : List Spec.Lang.Sym} {ce : Locals} {ρ : Spec.Lang.Sym → Option MVal} (h : LocalsRel g vs ce ρ) {c : Bytes}
    (v : Option CV) (h1 : c ∉ headers) (h2 : c ≠ txt "co") (h3 : c ≠ txt "R") (h4 : c ≠ txt "packageID") (h5 : ∀ n, c ≠ Compile.group n)
    (h6 : ∀ x ∈ vs, ident g x ≠ c) : LocalsRel g vs ((c, v) :: ce) ρ where
  co := by rw [lookup, if_neg h2]; exact h.co
  regs := by rw [lookup, if_neg h3]; exact h.regs
  header := fun x hx => by rw [lookup, if_neg (by rintro rfl; exact h1 hx)]; exact h.header x hx
  package := by rw [lookup, if_neg h4]; exact h.package
  group := fun n => by rw [lookup, if_neg (h5 n)]; exact h.group n
  var := fun x hx => by
    obtain ⟨w, hw1, hw2⟩ := h.var x hx
    exact ⟨w, hw1, by rw [lookup, if_neg (fun e => h6 x hx e.symm)]; exact hw2⟩

theorem usable_parts {b : Bytes} (h : Usable b) : b ≠ txt "co" ∧ b ≠ txt "R" ∧ b ≠ txt "packageID" ∧ b ≠ txt "__args" := by
  refine ⟨?_, ?_, ?_, ?_⟩ <;> (rintro rfl; exact h.part (by decide))

/-- another variable of the program -/
theorem LocalsRel.bind {g : Gen} {V vs : List Spec.Lang.Sym} (hV : VarsOk g V) {ce : Locals} {ρ : Spec.Lang.Sym → Option MVal} (h : LocalsRel g vs ce ρ)
    (hvs : ∀ y ∈ vs, y ∈ V) {x : Spec.Lang.Sym} (hx : x ∈ V) (v : MVal) :
    LocalsRel g (x :: vs) ((ident g x, some (.obj v)) :: ce) (fun y => if y = x then some v else ρ y) := by
  have hu := ident_name (hV.usable x hx)
  obtain ⟨p1, p2, p3, -⟩ := usable_parts hu
  have h0 := (h.mono (us := []) (by simp)).add (some (.obj v)) hu.header p1 p2 p3 hu.group (by simp)
  refine { h0 with var := ?_ }
  intro y hy
  by_cases e : y = x
  · subst e
    exact ⟨v, by simp, by simp [lookup]⟩
  · obtain ⟨w, h1, h2⟩ := h.var y (by simpa [e] using hy)
    refine ⟨w, by simp [e, h1], ?_⟩
    rw [lookup, if_neg (fun e' => e (hV.ident_inj (hvs y (by simpa [e] using hy)) hx e'.symm))]
    exact h2

/-- a variable of the program that is being declared -/
theorem LocalsRel.declare {g : Gen} {V vs : List Spec.Lang.Sym} (hV : VarsOk g V) {ce : Locals} {ρ : Spec.Lang.Sym → Option MVal} (h : LocalsRel g vs ce ρ)
    (hvs : ∀ y ∈ vs, y ∈ V) {x : Spec.Lang.Sym} (hx : x ∈ V) :
    LocalsRel g (vs.filter (· ≠ x)) ((ident g x, none) :: ce) ρ := by
  have hu := ident_name (hV.usable x hx)
  obtain ⟨p1, p2, p3, -⟩ := usable_parts hu
  refine (h.mono fun y hy => (List.mem_filter.mp hy).1).add none hu.header p1 p2 p3 hu.group ?_
  intro y hy e
  have := List.mem_filter.mp hy
  exact (by simpa using this.2 : y ≠ x) (hV.ident_inj (hvs y this.1) hx e)

theorem LocalsRel.congr {g : Gen} {vs : List Spec.Lang.Sym} {ce : Locals} {ρ ρ' : Spec.Lang.Sym → Option MVal} (h : LocalsRel g vs ce ρ)
    (he : ∀ x ∈ vs, ρ' x = ρ x) : LocalsRel g vs ce ρ' :=
  { h with var := fun x hx => by rw [he x hx]; exact h.var x hx }

/-! ### values -/

theorem value_cNum (u : Unit_) (ce : Locals) (s : Mach W) (n : Int) : value u ce s (cNum n) = some (.int n) := by
  unfold cNum
  split
  · rw [value]; congr 2; omega
  · rw [value]; congr 2; omega

theorem value_call {u : Unit_} {ce : Locals} {s : Mach W} {f : Bytes} {args : List Expr} (h : lookup f ce = none) :
    value u ce s (.call f args) = match values u ce s args with | some vs => pureCall u s f vs | none => none := by
  rw [value, h]
  rfl

theorem objs_map (vs : List MVal) : objs (vs.map .obj) = some vs := by
  induction vs with
  | nil => rfl
  | cons v vs ih => simp [objs, ih]

theorem findIdx_get {l : List Datum} {d : Datum} (h : d ∈ l) : ∃ i, l.findIdx? (· = d) = some i ∧ l[i]? = some d := by
  induction l with
  | nil => simp at h
  | cons a l ih =>
    rw [List.findIdx?_cons]
    by_cases e : a = d
    · exact ⟨0, by simp [e], by simp [e]⟩
    · obtain ⟨i, h1, h2⟩ := ih (by simpa [Ne.symm e] using h)
      exact ⟨i + 1, by simp [e, h1], by simpa using h2⟩

section
variable {g : Gen} {n : Nat} {u : Unit_} (hu : Loaded g n u) {vs : List Spec.Lang.Sym} {ce : Locals} {env : CEnv MCode}
  (he : LocalsRel g vs ce (fun x => cfind x env)) (s : Mach W)
include hu he

theorem value_binding {x : Spec.Lang.Sym} (h : .sym x ∈ g.globals) : value u ce s (cBinding g (.sym x)) = some (.binding x) := by
  obtain ⟨i, h1, h2⟩ := findIdx_get h
  have hoff : symbolOffset (.sym x) g.globals = (i : Int) := by rw [symbolOffset, h1]
  have htab : u.table[i]? = some x := by rw [hu.table, List.getElem?_map, h2]; rfl
  rw [cBinding, value_call (he.header _ (by decide))]
  simp only [values, value, he.co, he.package, value_cNum, constant, hoff]
  rw [if_neg (by decide), if_neg (by decide), if_neg (by decide), if_pos (by trivial)]
  simp only [pureCall]
  rw [if_neg (by decide), if_pos (by trivial)]
  change Option.map CV.binding u.table[i]? = _
  rw [htab]
  rfl

theorem value_cConst {d : Datum} (h : DatumOk g d) : value u ce s (cConst g d) = some (.obj (cval d)) := by
  cases d with
  | sym x =>
    simp only [cConst, value, value_binding hu he s h]
    rfl
  | int n =>
    rw [cConst, value_call (he.header _ (by decide))]
    simp only [values, value_cNum, pureCall]
    rw [if_neg (by decide), if_neg (by decide), if_neg (by decide), if_pos (by trivial)]
    rfl
  | str t =>
    rw [cConst, value_call (he.header _ (by decide))]
    simp only [values, value, he.co]
    rw [if_neg (by decide), if_pos (by trivial)]
    simp only [pureCall]
    rw [if_neg (by decide), if_neg (by decide), if_neg (by decide), if_neg (by decide), if_pos (by trivial)]
    simp only [makeCString, upToNul_eq h.1, fromUTF8_bytesOf]
    rfl
  | nil =>
    simp only [cConst, value, he.header (txt "Nil") (by decide)]
    rfl
  | bool b =>
    cases b
    · simp only [cConst, value, he.header (txt "False") (by decide)]
      rfl
    · simp only [cConst, value, he.header (txt "True") (by decide)]
      rfl
  | cons => exact h.elim

theorem value_cRef {r : Ref} (h : RefOk vs r) :
    value u ce s (cRef g r) = (r.get env (capturedOf (s.stack s.ctx.bp))).map .obj := by
  cases r with
  | loc x =>
    obtain ⟨v, h1, h2⟩ := he.var x h
    simp only [cRef, value, h2, Ref.get]
    rw [show cfind x env = some v from h1]
    rfl
  | cap i =>
    rw [cRef, value_call (he.header _ (by decide))]
    simp only [values, value, he.regs, pureCall]
    rw [if_neg (by decide), if_neg (by decide), if_pos (by trivial)]
    rfl

theorem values_refs : ∀ {rs : List Ref}, (∀ r ∈ rs, RefOk vs r) →
    values u ce s (rs.map (cRef g)) = (getRefs env (capturedOf (s.stack s.ctx.bp)) rs).map (·.map .obj)
  | [], _ => rfl
  | r :: rs, h => by
    rw [List.map_cons, values, value_cRef hu he s (h r (by simp)), values_refs fun x hx => h x (by simp [hx])]
    simp only [getRefs]
    cases r.get env (capturedOf (s.stack s.ctx.bp)) <;> cases getRefs env (capturedOf (s.stack s.ctx.bp)) rs <;> rfl

theorem value_cSmp {e : CSmp} (h : SmpOk g n vs e) :
    value u ce s (cSmp g e) = (evalC u.unit (capturedOf (s.stack s.ctx.bp)) env s.world e).map .obj := by
  cases e with
  | const d => exact value_cConst hu he s h
  | global x =>
    rw [cSmp, value_call (he.header _ (by decide))]
    simp only [values, value_binding hu he s h, value, he.co]
    rw [pureCall, if_pos (by trivial)]
    rfl
  | ref r => exact value_cRef hu he s h
  | closure label nargs nframe frees =>
    rw [cSmp, value_call (he.header _ (by decide))]
    simp only [values, value, he.co, he.group label, values_refs hu he s h.2, evalC]
    rw [if_neg (by decide), if_pos (by trivial)]
    have hc : constant u (group label) = some (.fn label) := by
      have hne : ∀ w ∈ [txt "Nil", txt "True", txt "False", txt "packageID"], group label ≠ w := by
        intro w hw e
        exact group_not_mem (l := [txt "Nil", txt "True", txt "False", txt "packageID"]) (by decide) label (e ▸ hw)
      rw [constant, if_neg (hne _ (by simp)), if_neg (hne _ (by simp)), if_neg (hne _ (by simp)), if_neg (hne _ (by simp)), hu.funs label h.1]
      rfl
    rw [hc]
    have hlen : ∀ {rs : List Ref} {us : List MVal}, getRefs env (capturedOf (s.stack s.ctx.bp)) rs = some us → us.length = rs.length := by
      intro rs
      induction rs with
      | nil => intro us h; simp [getRefs] at h; subst h; rfl
      | cons r rs ih =>
        intro us h
        simp only [getRefs] at h
        split at h
        · rename_i h1 h2; cases h; simp [ih h2]
        · simp at h
    cases hg : getRefs env (capturedOf (s.stack s.ctx.bp)) frees with
    | none => rfl
    | some us =>
      simp only [Option.map_some, pureCall]
      rw [if_neg (by decide), if_neg (by decide), if_neg (by decide), if_neg (by decide), if_neg (by decide), if_pos (by trivial)]
      change (if (frees.length : Int) = ((us.map CV.obj).length : Nat) then (objs (us.map CV.obj)).map _ else none) = _
      rw [objs_map, if_pos (by simp [hlen hg])]
      rfl

theorem values_cSmps : ∀ {es : List CSmp}, (∀ e ∈ es, SmpOk g n vs e) →
    values u ce s (es.map (cSmp g)) = (evalCs u.unit (capturedOf (s.stack s.ctx.bp)) env s.world es).map (·.map .obj)
  | [], _ => rfl
  | e :: es, h => by
    rw [List.map_cons, values, value_cSmp hu he s (h e (by simp)), values_cSmps fun x hx => h x (by simp [hx])]
    simp only [evalCs]
    cases evalC u.unit (capturedOf (s.stack s.ctx.bp)) env s.world e <;>
      cases evalCs u.unit (capturedOf (s.stack s.ctx.bp)) env s.world es <;> rfl

theorem initial_cSmp (O : Outside W) {e : CSmp} (h : SmpOk g n vs e) :
    initial O u ce s (cSmp g e) = (evalC u.unit (capturedOf (s.stack s.ctx.bp)) env s.world e).map fun v => (.obj v, s) := by
  have hv := value_cSmp hu he s h
  have key : initial O u ce s (cSmp g e) = (value u ce s (cSmp g e)).map fun v => (v, s) := by
    cases e with
    | const d =>
      cases d with
      | sym => rfl
      | int => rw [cSmp, cConst, initial, he.header _ (by decide)]; rfl
      | str => rw [cSmp, cConst, initial, he.header _ (by decide)]; rfl
      | nil => rfl
      | bool b => cases b <;> rfl
      | cons => rfl
    | global => rw [cSmp, initial, he.header _ (by decide)]; rfl
    | ref r =>
      cases r with
      | loc => rfl
      | cap => rw [cSmp, cRef, initial, he.header _ (by decide)]; rfl
    | closure => rw [cSmp, initial, he.header _ (by decide)]; rfl
  rw [key, hv]
  cases evalC u.unit (capturedOf (s.stack s.ctx.bp)) env s.world e <;> rfl

theorem initial_cPrim (O : Outside W) {p : String} {args : List CSmp} (ha : primArity p = some args.length) (h : ∀ e ∈ args, SmpOk g n vs e) :
    initial O u ce s (cPrim g p args) =
      match evalCs u.unit (capturedOf (s.stack s.ctx.bp)) env s.world args with
      | some vs => (cprim O p vs s.world).map fun r => (.obj r.1, { s with world := r.2 })
      | none => none := by
  obtain ⟨b1, -, b2⟩ := builtin_facts ha
  have hvals := values_cSmps hu he s h
  rw [cPrim, initial, he.header _ b1, b2]
  simp only [Option.bind_eq_bind]
  by_cases h1 : p = "set"
  · subst h1
    simp only [if_true, List.cons_append, List.nil_append, values, value, he.co, hvals]
    cases evalCs u.unit (capturedOf (s.stack s.ctx.bp)) env s.world args with
    | none => rfl
    | some ws =>
      simp only [Option.map_some, Option.bind_some, primArgs, true_or, if_true, objs_map]
      cases cprim O "set" ws s.world <;> rfl
  · by_cases h2 : p = "gensym"
    · subst h2
      simp only [h1, if_false, if_true, List.cons_append, List.nil_append, values, value, he.co, hvals]
      cases evalCs u.unit (capturedOf (s.stack s.ctx.bp)) env s.world args with
      | none => rfl
      | some ws =>
        simp only [Option.map_some, Option.bind_some, primArgs, or_true, if_true, objs_map]
        cases cprim O "gensym" ws s.world <;> rfl
    · by_cases h3 : p = "cons"
      · subst h3
        simp only [h1, h2, if_false, if_true, List.cons_append, List.nil_append, values, value, he.co, hvals]
        rw [if_neg (by decide)]
        cases evalCs u.unit (capturedOf (s.stack s.ctx.bp)) env s.world args with
        | none => rfl
        | some ws =>
          simp only [Option.map_some, Option.bind_some, primArgs, h1, h2, or_self, if_false, if_true, objs_map]
          cases cprim O "cons" ws s.world <;> rfl
      · simp only [h1, h2, h3, if_false, List.nil_append, hvals]
        cases evalCs u.unit (capturedOf (s.stack s.ctx.bp)) env s.world args with
        | none => rfl
        | some ws =>
          simp only [Option.map_some, Option.bind_some, primArgs, h1, h2, h3, or_self, if_false, objs_map]
          cases cprim O p ws s.world <;> rfl

theorem statement_cSmp {e : CSmp} (h : SmpOk g n vs e) :
    statement u ce s (cSmp g e) = (evalC u.unit (capturedOf (s.stack s.ctx.bp)) env s.world e).map fun _ => (s, none) := by
  have hv := value_cSmp hu he s h
  have hcall : ∀ f args, f ∉ [txt "coraReturn", txt "coraCall", txt "saveCont", txt "coraCall0", txt "coraCall1", txt "coraCall2", txt "coraCall3", txt "coraCall4"] →
      statement u ce s (.call f args) = (value u ce s (.call f args)).map fun _ => (s, none) := by
    intro f args hf
    simp only [List.mem_cons, List.not_mem_nil, or_false, not_or] at hf
    rw [statement, if_neg (by simp [hf]), if_neg (by simp [hf]), if_neg (by simp [hf]), if_neg (by simp [hf])]
  have key : statement u ce s (cSmp g e) = (value u ce s (cSmp g e)).map fun _ => (s, none) := by
    cases e with
    | const d =>
      cases d with
      | sym => rfl
      | int => exact hcall _ _ (by decide)
      | str => exact hcall _ _ (by decide)
      | nil => rfl
      | bool b => cases b <;> rfl
      | cons => rfl
    | global => exact hcall _ _ (by decide)
    | ref r =>
      cases r with
      | loc => rfl
      | cap => exact hcall _ _ (by decide)
    | closure => exact hcall _ _ (by decide)
  rw [key, hv]
  cases evalC u.unit (capturedOf (s.stack s.ctx.bp)) env s.world e <;> rfl

theorem evalCs_length {unit : Nat} {caps : List MVal} {env : CEnv MCode} {w : CWorld MCode W} : ∀ {es : List CSmp} {vs : List MVal},
    evalCs unit caps env w es = some vs → vs.length = es.length
  | [], vs, h => by simp [evalCs] at h; subst h; rfl
  | e :: es, vs, h => by
    simp only [evalCs] at h
    split at h
    · rename_i h1 h2; cases h; simp [evalCs_length h2]
    · simp at h

end

/-! ### statements -/

theorem exec_cCall {g : Gen} {n : Nat} {u : Unit_} (hu : Loaded g n u) {vs : List Spec.Lang.Sym} (hvs : AllNamed g vs) {ce : Locals}
    {env : CEnv MCode} (he : LocalsRel g vs ce (fun x => cfind x env)) (O : Outside W) (s : Mach W) {f : CSmp} {args : List CSmp}
    (hf : SmpOk g n vs f) (h : ∀ e ∈ args, SmpOk g n vs e) :
    exec O u (cCall g f args (.ret .done)) ce s none =
      match evalC u.unit (capturedOf (s.stack s.ctx.bp)) env s.world f, evalCs u.unit (capturedOf (s.stack s.ctx.bp)) env s.world args with
      | some v, some ws => some (.returned s (.call v ws))
      | _, _ => none := by
  have hargs : ∀ (v : Option CV), LocalsRel g vs ((txt "__args", v) :: ce) (fun x => cfind x env) := fun v =>
    he.add v (by decide) (by decide) (by decide) (by decide)
      (fun n e => group_not_mem (l := [txt "__args"]) (by decide) n (by simp [e]))
      (fun x hx => (usable_parts (ident_name (hvs x hx))).2.2.2)
  unfold cCall
  split
  · rw [exec]
    simp only [Option.bind_eq_bind]
    rw [values_cSmps hu (hargs none) s h]
    cases hvals : evalCs u.unit (capturedOf (s.stack s.ctx.bp)) env s.world args with
    | none => cases evalC u.unit (capturedOf (s.stack s.ctx.bp)) env s.world f <;> rfl
    | some ws =>
      have hl := evalCs_length hu he hvals
      simp only [Option.map_some, Option.bind_some, objs_map, hl, if_true]
      have he' := hargs (some (.arr ws))
      have hl0 : lookup (txt "__args") ((txt "__args", some (.arr ws)) :: ce) = some (some (.arr ws)) := by simp [lookup]
      rw [exec]
      simp only [Option.bind_eq_bind]
      rw [statement, if_neg (by rintro ⟨-, h⟩; revert h; decide), if_pos ⟨he'.header _ (by decide), rfl⟩]
      simp only [values, value, he'.co, value_cSmp hu he' s hf, hl0]
      cases evalC u.unit (capturedOf (s.stack s.ctx.bp)) env s.world f with
      | none => rfl
      | some v =>
        simp only [Option.map_some, Option.bind_eq_bind, Option.bind_some, hl, if_true]
        rfl
  · rename_i hn
    have hm := coraCall_header hn
    have hh : txt "coraCall" ++ Reader.decDigits args.length ∈ headers := by
      have sub : ∀ x ∈ [txt "coraCall0", txt "coraCall1", txt "coraCall2", txt "coraCall3", txt "coraCall4"], x ∈ headers := by decide
      exact sub _ hm
    have hne : ∀ w ∈ [txt "coraReturn", txt "coraCall", txt "saveCont"], txt "coraCall" ++ Reader.decDigits args.length ≠ w := by
      have sub : ∀ x ∈ [txt "coraCall0", txt "coraCall1", txt "coraCall2", txt "coraCall3", txt "coraCall4"],
        ∀ w ∈ [txt "coraReturn", txt "coraCall", txt "saveCont"], x ≠ w := by decide
      exact sub _ hm
    rw [exec]
    simp only [Option.bind_eq_bind]
    rw [statement, if_neg (fun h => hne _ (by simp) h.2), if_neg (fun h => hne _ (by simp) h.2), if_neg (fun h => hne _ (by simp) h.2),
      if_pos ⟨he.header _ hh, hm⟩]
    simp only [values, value, he.co, value_cSmp hu he s hf, values_cSmps hu he s h]
    cases evalC u.unit (capturedOf (s.stack s.ctx.bp)) env s.world f with
    | none => rfl
    | some v =>
      cases hvals : evalCs u.unit (capturedOf (s.stack s.ctx.bp)) env s.world args with
      | none => rfl
      | some ws =>
        have hl := evalCs_length hu he hvals
        simp only [Option.map_some, Option.bind_eq_bind, Option.bind_some, objs_map, hl, if_true]
        rfl

theorem storeAt_cons (stack : Nat → MVal) (a : Nat) (v : MVal) (vs : List MVal) :
    storeAt (fun p => if p = a then v else stack p) (a + 1) vs = storeAt stack a (v :: vs) := by
  funext p
  simp only [storeAt, List.length_cons]
  by_cases h1 : p = a
  · subst h1
    rw [if_neg (by omega), if_pos rfl, if_pos (by omega)]
    simp
  · by_cases h2 : a + 1 ≤ p ∧ p < a + 1 + vs.length
    · rw [if_pos h2, if_pos (by omega)]
      have : p - a = (p - (a + 1)) + 1 := by omega
      rw [this, List.getD_cons_succ]
    · rw [if_neg h2, if_neg h1, if_neg (by omega)]

theorem exec_cSave {g : Gen} {u : Unit_} {vs : List Spec.Lang.Sym} {ce : Locals} {env : CEnv MCode}
    (he : LocalsRel g vs ce (fun x => cfind x env)) (O : Outside W) (k : Block) : ∀ (live : List Spec.Lang.Sym) (i : Nat) (s : Mach W), (∀ x ∈ live, x ∈ vs) →
    ∃ us, getRefs env [] (live.map Ref.loc) = some us ∧
      exec O u (cSave g i live k) ce s none = exec O u k ce { s with stack := storeAt s.stack (s.ctx.bp + i) us } none
  | [], i, s, _ => by
    refine ⟨[], rfl, ?_⟩
    have : storeAt s.stack (s.ctx.bp + i) [] = s.stack := by
      funext p
      rw [storeAt, if_neg (by simp only [List.length_nil]; omega)]
    rw [this]
    rfl
  | x :: r, i, s, h => by
    obtain ⟨v, h1, h2⟩ := he.var x (h x (by simp))
    obtain ⟨us, h3, h4⟩ := exec_cSave he O k r (i + 1) { s with stack := fun p => if p = s.ctx.bp + i then v else s.stack p } fun y hy => h y (by simp [hy])
    refine ⟨v :: us, ?_, ?_⟩
    · simp only [List.map_cons, getRefs, h3, Ref.get]
      rw [show cfind x env = some v from h1]
    · rw [cSave, exec]
      simp only [Option.bind_eq_bind, assign, he.regs, value, h2]
      change ((some _).bind _) = _
      simp only [Option.bind_some]
      refine h4.trans ?_
      simp only
      rw [← Nat.add_assoc, storeAt_cons]

theorem exec_cStm {g : Gen} {n : Nat} {u : Unit_} (hu : Loaded g n u) {V : List Spec.Lang.Sym} (hV : VarsOk g V) (O : Outside W) {self : Nat}
    (hself : self < n) : ∀ (st : CStm) {vs here : List Spec.Lang.Sym} {ce : Locals} {env : CEnv MCode} {s : Mach W},
    (∀ x ∈ vs, x ∈ V) → (∀ x ∈ here, x ∈ V) → LocalsRel g (here ++ vs) ce (fun x => cfind x env) → StmOk g n V vs here st →
    s.ctx.fn = .code u.unit self →
    exec O u (cStm g self st) ce s none = (execC O u.unit st env s).map fun r => .returned r.1 r.2 := by
  intro st
  induction st with
  | ret e =>
    intro vs here ce env s h1 h2 he h hs
    rw [cStm, exec]
    simp only [Option.bind_eq_bind]
    rw [statement, if_pos ⟨he.header _ (by decide), rfl⟩]
    simp only [values, value, he.co, value_cSmp hu he s h, execC]
    cases evalC u.unit (capturedOf (s.stack s.ctx.bp)) env s.world e <;> rfl
  | tail f args =>
    intro vs here ce env s h1 h2 he h hs
    have hnam : AllNamed g (here ++ vs) := fun x hx => hV.usable x ((List.mem_append.mp hx).elim (h2 x) (h1 x))
    rw [cStm, exec]
    simp only [Option.bind_eq_bind, assign, he.co, value, he.regs]
    rw [if_pos (by decide)]
    simp only [Option.bind_some]
    rw [exec_cCall hu hnam he O _ h.1 h.2]
    simp only [execC]
    cases evalC u.unit (capturedOf (s.stack s.ctx.bp)) env s.world f <;>
      cases evalCs u.unit (capturedOf (s.stack s.ctx.bp)) env s.world args <;> rfl
  | call f args label live =>
    intro vs here ce env s h1 h2 he h hs
    have hnam : AllNamed g (here ++ vs) := fun x hx => hV.usable x ((List.mem_append.mp hx).elim (h2 x) (h1 x))
    rw [cStm]
    obtain ⟨us, h3, h4⟩ := exec_cSave (u := u) he O
      (.expr (.call (txt "saveCont") [.id (txt "co"), .id (group self), .num label, .id (txt "R")]) (cCall g f args (.ret .done))) live 1 s h.2.2
    rw [h4, exec]
    simp only [Option.bind_eq_bind]
    rw [statement, if_neg (by rintro ⟨-, h⟩; revert h; decide), if_neg (by rintro ⟨-, h⟩; revert h; decide),
      if_pos ⟨he.header _ (by decide), rfl⟩]
    have hc : constant u (group self) = some (.fn self) := by
      have hne : ∀ w ∈ [txt "Nil", txt "True", txt "False", txt "packageID"], group self ≠ w := by
        intro w hw e
        exact group_not_mem (l := [txt "Nil", txt "True", txt "False", txt "packageID"]) (by decide) self (e ▸ hw)
      rw [constant, if_neg (hne _ (by simp)), if_neg (hne _ (by simp)), if_neg (hne _ (by simp)), if_neg (hne _ (by simp)), hu.funs self hself]
      rfl
    simp only [values, value, he.co, he.regs, he.group, hc, Option.bind_eq_bind, Option.bind_some]
    change exec O u (cCall g f args (.ret .done)) ce _ none = _
    rw [exec_cCall hu hnam he O _ h.1 h.2.1]
    simp only [execC, h3]
    have hfr : (⟨Fn.code u.unit self, label, s.ctx.bp, s.ctx.sp⟩ : MFrame) = { s.ctx with label := label } := by rw [← hs]
    rw [hfr]
    cases evalC u.unit (capturedOf (storeAt s.stack (s.ctx.bp + 1) us s.ctx.bp)) env s.world f <;>
      cases evalCs u.unit (capturedOf (storeAt s.stack (s.ctx.bp + 1) us s.ctx.bp)) env s.world args <;> rfl
  | bind x e k ih =>
    intro vs here ce env s h1 h2 he h hs
    have hall : ∀ y ∈ here ++ vs, y ∈ V := fun y hy => (List.mem_append.mp hy).elim (h2 y) (h1 y)
    rw [cStm, exec]
    simp only [Option.bind_eq_bind]
    rw [initial_cSmp hu (he.declare hV hall h.1) s O h.2.2.1]
    simp only [execC]
    cases hv : evalC u.unit (capturedOf (s.stack s.ctx.bp)) env s.world e with
    | none => rfl
    | some v =>
      simp only [Option.map_some, Option.bind_some]
      refine ih h1 (by intro y hy; rcases List.mem_cons.mp hy with rfl | hy; exact h.1; exact h2 y hy) ?_ h.2.2.2 hs
      exact (he.bind hV hall h.1 v).congr (fun y _ => by simp only [cfind]; by_cases e : y = x; simp [e]; simp [e, Ne.symm e])
  | prim x p args k ih =>
    intro vs here ce env s h1 h2 he h hs
    have hall : ∀ y ∈ here ++ vs, y ∈ V := fun y hy => (List.mem_append.mp hy).elim (h2 y) (h1 y)
    rw [cStm, exec]
    simp only [Option.bind_eq_bind]
    rw [initial_cPrim hu (he.declare hV hall h.1) s O h.2.2.1 h.2.2.2.1]
    simp only [execC]
    cases evalCs u.unit (capturedOf (s.stack s.ctx.bp)) env s.world args with
    | none => rfl
    | some ws =>
      simp only
      cases cprim O p ws s.world with
      | none => rfl
      | some r =>
        simp only [Option.map_some, Option.bind_some]
        refine ih h1 (by intro y hy; rcases List.mem_cons.mp hy with rfl | hy; exact h.1; exact h2 y hy) ?_ h.2.2.2.2 hs
        exact (he.bind hV hall h.1 r.1).congr (fun y _ => by simp only [cfind]; by_cases e : y = x; simp [e]; simp [e, Ne.symm e])
  | seq e k ih =>
    intro vs here ce env s h1 h2 he h hs
    rw [cStm, exec]
    simp only [Option.bind_eq_bind]
    rw [statement_cSmp hu he s h.1]
    simp only [execC]
    cases evalC u.unit (capturedOf (s.stack s.ctx.bp)) env s.world e with
    | none => rfl
    | some v =>
      simp only [Option.map_some, Option.bind_some]
      exact ih h1 h2 he h.2 hs
  | ite e a b iha ihb =>
    intro vs here ce env s h1 h2 he h hs
    have hall : ∀ y ∈ here ++ vs, y ∈ V := fun y hy => (List.mem_append.mp hy).elim (h2 y) (h1 y)
    have ha := iha (vs := here ++ vs) (here := []) (s := s) hall (by simp) he h.2.1 hs
    have hb := ihb (vs := here ++ vs) (here := []) (s := s) hall (by simp) he h.2.2 hs
    rw [cStm, exec]
    simp only [Option.bind_eq_bind, value, he.header (txt "True") (by decide), value_cSmp hu he s h.1, execC]
    have hc : constant u (txt "True") = some (.obj (.bool true)) := rfl
    rw [hc]
    cases evalC u.unit (capturedOf (s.stack s.ctx.bp)) env s.world e with
    | none => rfl
    | some v =>
      simp only [Option.map_some, Option.bind_some, ha, hb]
      cases hv : v.isTrue
      · simp only [Bool.false_eq_true, if_false, ne_eq, not_true, Option.bind_eq_bind]
        cases execC O u.unit b env s <;> rfl
      · simp only [if_true, Option.bind_eq_bind]
        rw [if_pos (by decide)]
        cases execC O u.unit a env s <;> rfl

/-! ### functions -/

theorem exec_cRecover {g : Gen} {u : Unit_} {V : List Spec.Lang.Sym} (hV : VarsOk g V) (O : Outside W) (s : Mach W) (k : Block) :
    ∀ (live : List Spec.Lang.Sym) (i : Nat) {vs : List Spec.Lang.Sym} {ce : Locals} {ρ : Spec.Lang.Sym → Option MVal}, (∀ x ∈ live, x ∈ V) → live.Nodup →
    (∀ x ∈ vs, x ∈ V) → LocalsRel g vs ce ρ → ∃ ce' ρ', exec O u (cRecover g i live k) ce s none = exec O u k ce' s none ∧
      LocalsRel g (live ++ vs) ce' ρ' ∧ (∀ j x, live[j]? = some x → ρ' x = some (s.stack (s.ctx.bp + i + j))) ∧ ∀ x, x ∉ live → ρ' x = ρ x
  | [], i, vs, ce, ρ, _, _, _, he => ⟨ce, ρ, rfl, he, by simp, by simp⟩
  | x :: r, i, vs, ce, ρ, hl, hn, hvs, he => by
    have hx := hl x (by simp)
    have hn' := List.nodup_cons.mp hn
    have he1 := he.bind hV hvs hx (s.stack (s.ctx.bp + i))
    obtain ⟨ce', ρ', h1, h2, h3, h4⟩ := exec_cRecover (u := u) hV O s k r (i + 1) (fun y hy => hl y (by simp [hy])) hn'.2
      (by intro y hy; rcases List.mem_cons.mp hy with rfl | hy; exact hx; exact hvs y hy) he1
    refine ⟨ce', ρ', ?_, ?_, ?_, ?_⟩
    · rw [cRecover, exec]
      have hR := (he.declare hV hvs hx).regs
      simp only [Option.bind_eq_bind, initial, value, hR]
      exact h1
    · refine h2.mono ?_
      intro y hy
      simp only [List.mem_append, List.mem_cons] at hy ⊢
      rcases hy with (rfl | hy) | hy <;> simp [*]
    · intro j y hj
      cases j with
      | zero =>
        simp at hj
        subst hj
        rw [h4 x hn'.1]
        simp
      | succ j =>
        rw [h3 j y (by simpa using hj)]
        congr 2
        omega
    · intro y hy
      simp only [List.mem_cons, not_or] at hy
      rw [h4 y hy.2]
      simp [hy.1]

theorem cfind_zip (f : Nat → MVal) : ∀ (xs : List Spec.Lang.Sym) (i : Nat) (rest : CEnv MCode), xs.Nodup →
    (∀ j x, xs[j]? = some x → cfind x (xs.zip ((List.range' i xs.length).map f) ++ rest) = some (f (i + j))) ∧
    ∀ x, x ∉ xs → cfind x (xs.zip ((List.range' i xs.length).map f) ++ rest) = cfind x rest
  | [], i, rest, _ => by simp
  | y :: xs, i, rest, hn => by
    have hn' := List.nodup_cons.mp hn
    obtain ⟨h1, h2⟩ := cfind_zip f xs (i + 1) rest hn'.2
    simp only [List.length_cons, List.range'_succ, List.map_cons, List.zip_cons_cons, List.cons_append]
    constructor
    · intro j x hj
      cases j with
      | zero => simp at hj; subst hj; simp [cfind]
      | succ j =>
        have hx : xs[j]? = some x := by simpa using hj
        have hne : y ≠ x := by rintro rfl; exact hn'.1 (List.mem_of_getElem? hx)
        rw [cfind, if_neg hne, h1 j x hx]
        congr 2
        omega
    · intro x hx
      simp only [List.mem_cons, not_or] at hx
      rw [cfind, if_neg (Ne.symm hx.1), h2 x hx.2]

theorem cfind_append_none {x : Spec.Lang.Sym} : ∀ {a b : CEnv MCode}, (∀ p ∈ a, p.1 ≠ x) → cfind x (a ++ b) = cfind x b
  | [], _, _ => rfl
  | (y, v) :: a, b, h => by
    rw [List.cons_append, cfind, if_neg (h (y, v) (by simp)), cfind_append_none fun p hp => h p (by simp [hp])]

theorem cfind_reverse {x : Spec.Lang.Sym} : ∀ {a : CEnv MCode}, (a.map (·.1)).Nodup → cfind x a.reverse = cfind x a
  | [], _ => rfl
  | (y, v) :: a, h => by
    have hn := List.nodup_cons.mp h
    rw [List.reverse_cons]
    by_cases e : y = x
    · subst e
      rw [cfind_append_none, cfind, if_pos rfl, cfind, if_pos rfl]
      intro p hp e
      exact hn.1 (List.mem_map.mpr ⟨p, List.mem_reverse.mp hp, e⟩)
    · rw [cfind, if_neg e, ← cfind_reverse (a := a) hn.2]
      have : ∀ (c : CEnv MCode), cfind x (c ++ [(y, v)]) = cfind x c := by
        intro c
        induction c with
        | nil => simp [cfind, e]
        | cons p c ih => rw [List.cons_append, cfind, cfind, ih]
      rw [this]

theorem readAt_range' (stack : Nat → MVal) (a n : Nat) : readAt stack a n = (List.range' 0 n).map fun i => stack (a + i) := by
  rw [readAt, List.range_eq_range']

theorem zip_fst_nodup {xs : List Spec.Lang.Sym} {ys : List MVal} (h : xs.length = ys.length) : (xs.zip ys).map (·.1) = xs := by
  rw [← List.unzip_fst, List.unzip_zip h]

theorem param_env (g : Gen) (s : Mach W) (ρ : Spec.Lang.Sym → Option MVal) : LocalsRel g [] (paramVals s) ρ where
  co := rfl
  regs := rfl
  header := by
    intro h hh
    have : ∀ h ∈ headers, txt "co" ≠ h ∧ txt "label" ≠ h ∧ txt "R" ≠ h := by decide
    obtain ⟨h1, h2, h3⟩ := this h hh
    simp [paramVals, lookup, h1, h2, h3]
  package := rfl
  group := by
    intro n
    have hne : ∀ w ∈ [txt "co", txt "label", txt "R"], w ≠ group n := by
      intro w hw e
      exact group_not_mem (l := [txt "co", txt "label", txt "R"]) (by decide) n (e ▸ hw)
    simp only [paramVals, lookup]
    rw [if_neg (hne _ (by simp)), if_neg (hne _ (by simp)), if_neg (hne _ (by simp))]
  var := by simp

theorem find_cConts (g : Gen) (self : Nat) : ∀ (cs : List Cont) (i j : Nat),
    (cConts g self i cs).find? (fun c => (c.1 : Int) = ((i + j : Nat) : Int)) = (cs[j]?).map fun c => (i + j, cCont g self c)
  | [], i, j => by simp [cConts]
  | c :: r, i, j => by
    rw [cConts, List.find?_cons]
    cases j with
    | zero => simp
    | succ j =>
      have h1 : decide (((i, cCont g self c).1 : Int) = ((i + (j + 1) : Nat) : Int)) = false := by
        simp only [decide_eq_false_iff_not]; omega
      rw [h1]
      have := find_cConts g self r (i + 1) j
      have e : i + 1 + j = i + (j + 1) := by omega
      rw [e] at this
      rw [this]
      simp

theorem run_cBody {g : Gen} {n : Nat} {u : Unit_} (hu : Loaded g n u) (O : Outside W) {l : Lam} (h : LamOk g n l) {self : Nat} (hself : self < n)
    {s : Mach W} (hs : s.ctx.fn = .code u.unit self) : runBody O u s (cBody g self l) = l.block O u.unit s := by
  obtain ⟨V, hV, h1, hn, h2, h3⟩ := h.ok
  have hlab : value u (paramVals s) s (.id (txt "label")) = some (.int s.ctx.label) := rfl
  rw [cBody, runBody, hlab]
  simp only [Option.bind_eq_bind, Option.bind_some]
  cases hc : s.ctx.label with
  | zero =>
    rw [List.find?_cons_of_pos (by rfl)]
    simp only [Option.bind_some]
    obtain ⟨ce', ρ', e1, e2, e3, -⟩ := exec_cRecover (u := u) hV O s (cStm g self l.body) l.params 1 h1 hn (by simp)
      (param_env g s fun _ => none)
    rw [List.append_nil] at e2
    have e2' : LocalsRel g (l.params ++ []) ce' (fun x => cfind x (l.params.zip (readAt s.stack (s.ctx.bp + 1) l.params.length)).reverse) := by
      rw [List.append_nil]
      refine e2.congr ?_
      intro x hx
      obtain ⟨j, hj⟩ := List.mem_iff_getElem?.mp hx
      have hz := (cfind_zip (fun i => s.stack (s.ctx.bp + 1 + i)) l.params 0 [] hn).1 j x hj
      rw [List.append_nil] at hz
      rw [cfind_reverse (by rw [zip_fst_nodup (by simp [readAt])]; exact hn), readAt_range', hz, e3 j x hj]
      simp
    rw [e1, exec_cStm hu hV O hself l.body (vs := []) (by simp) h1 e2' h2 hs]
    simp only [Lam.block, hc]
    cases execC O u.unit l.body (l.params.zip (readAt s.stack (s.ctx.bp + 1) l.params.length)).reverse s <;> rfl
  | succ i =>
    rw [List.find?_cons_of_neg (by simp only [decide_eq_true_eq]; omega)]
    have hf := find_cConts g self l.conts 1 i
    have e : 1 + i = i + 1 := by omega
    rw [e] at hf
    rw [hf]
    simp only [Lam.block, hc]
    cases hcont : l.conts[i]? with
    | none => rfl
    | some c =>
      obtain ⟨h4, h5, h6, h7⟩ := h3 c (List.mem_of_getElem? hcont)
      simp only [Option.map_some, Option.bind_some]
      have hn' := List.nodup_cons.mp h6
      have hxs : ∀ x ∈ c.val :: c.live, x ∈ V := by
        intro x hx; rcases List.mem_cons.mp hx with rfl | hx; exact h4; exact h5 x hx
      rw [cCont, exec]
      have hd := ((param_env g s fun _ => none).declare hV (by simp) h4).co
      simp only [Option.bind_eq_bind, initial, value, hd]
      rw [if_pos (by trivial)]
      simp only [Option.map_some, Option.bind_some]
      obtain ⟨ce', ρ', e1, e2, e3, e4⟩ := exec_cRecover (u := u) hV O s (cStm g self c.body) c.live 1 h5 hn'.2 (by simpa using h4)
        ((param_env g s fun _ => none).bind hV (by simp) h4 s.res)
      have e2' : LocalsRel g ((c.val :: c.live) ++ []) ce'
          (fun x => cfind x ((c.val, s.res) :: c.live.zip (readAt s.stack (s.ctx.bp + 1) c.live.length))) := by
        refine (e2.congr ?_).mono ?_
        · intro x hx
          by_cases e : x = c.val
          · subst e
            rw [e4 _ hn'.1]
            simp [cfind]
          · have hx' : x ∈ c.live := by simpa [e] using hx
            obtain ⟨j, hj⟩ := List.mem_iff_getElem?.mp hx'
            have hz := (cfind_zip (fun i => s.stack (s.ctx.bp + 1 + i)) c.live 0 [] hn'.2).1 j x hj
            rw [List.append_nil] at hz
            rw [cfind, if_neg (Ne.symm e), readAt_range', hz, e3 j x hj]
            simp
        · intro x hx
          simp at hx ⊢
          rcases hx with rfl | hx <;> simp [*]
      rw [e1, exec_cStm hu hV O hself c.body (vs := []) (by simp) hxs e2' h7 hs]
      cases execC O u.unit c.body ((c.val, s.res) :: c.live.zip (readAt s.stack (s.ctx.bp + 1) c.live.length)) s <;> rfl

/-! ### the file -/

theorem functions_append (b : List Item) : ∀ a : List Item, functions (a ++ b) = functions a ++ functions b
  | [] => rfl
  | .var _ _ :: a => by simp [functions, functions_append b a]
  | .proto _ :: a => by simp [functions, functions_append b a]
  | .func true _ _ :: a => by simp [functions, functions_append b a]
  | .func false _ _ :: a => by simp [functions, functions_append b a]

theorem functions_protos (f : Nat → Lam → Bytes) : ∀ lams : List Lam, functions (cAll (fun i l => Item.proto (f i l)) lams) = [] := by
  intro lams
  induction lams generalizing f with
  | nil => rfl
  | cons l r ih => rw [cAll, functions_append, ih fun i => f (i + 1)]; rfl

theorem functions_funs (f : Nat → Lam → Bytes × Body) : ∀ lams : List Lam,
    functions (cAll (fun i l => Item.func true (f i l).1 (f i l).2) lams) = cAll f lams := by
  intro lams
  induction lams generalizing f with
  | nil => rfl
  | cons l r ih => rw [cAll, functions_append, ih fun i => f (i + 1), cAll]; rfl

/-- the functions of the file -/
theorem functions_cFile (g : Gen) (lams : List Lam) :
    (functions (cFile g lams)).reverse = lams.mapIdx fun i l => (group i, cBody g i l) := by
  rw [cFile, functions, functions_append, functions_protos, functions, List.nil_append,
    functions_funs (fun i l => (group i, cBody g i l)), cAll_reverse]
  · simp
  · simp

theorem findIdx_mapIdx (f : Nat → Bytes) (hf : ∀ i j, f i = f j → i = j) (b : Nat → Lam → Body) : ∀ (lams : List Lam) (m l : Nat), l < lams.length →
    (lams.mapIdx fun i x => (f (i + m), b i x)).findIdx? (fun p => p.1 = f (l + m)) = some l := by
  intro lams
  induction lams generalizing b with
  | nil => intro m l h; simp at h
  | cons a r ih =>
    intro m l h
    rw [List.mapIdx_cons, List.findIdx?_cons]
    cases l with
    | zero => simp
    | succ l =>
      have : decide (f (0 + m) = f (l + 1 + m)) = false := by
        simp only [decide_eq_false_iff_not]
        intro e
        have := hf _ _ e
        omega
      rw [this]
      have e1 : (fun i x => (f (i + 1 + m), b (i + 1) x) : Nat → Lam → Bytes × Body) = fun i x => (f (i + (m + 1)), b (i + 1) x) := by
        funext i x; congr 2; omega
      have e2 : l + 1 + m = l + (m + 1) := by omega
      simp only [e1, e2]
      rw [ih (fun i => b (i + 1)) (m + 1) l (by simpa using h)]
      rfl

theorem funNumber_cFile (g : Gen) (lams : List Lam) {l : Nat} (h : l < lams.length) : funNumber (cFile g lams) (group l) = some l := by
  rw [funNumber, functions_cFile]
  exact findIdx_mapIdx group (fun _ _ => group_inj) (fun i x => cBody g i x) lams 0 l h

theorem findEntry_append {b : List Item} : ∀ {a : List Item}, (∀ i ∈ a, ∃ f, i = .proto f) → findEntry (a ++ b) = findEntry b
  | [], _ => rfl
  | i :: a, h => by
    obtain ⟨f, rfl⟩ := h i (by simp)
    rw [List.cons_append, findEntry, findEntry_append fun j hj => h j (by simp [hj])]
    simp

theorem findEntry_cFile (g : Gen) (lams : List Lam) : findEntry (cFile g lams) = some (cEntry g (lams.length - 1)) := by
  rw [cFile, findEntry, findEntry_append, findEntry, if_pos rfl]
  · intro i hi
    obtain ⟨j, l, -, rfl⟩ := cAll_mem hi
    exact ⟨_, rfl⟩
  · simp

theorem entry_cTable {g : Gen} (funs : Bytes → Option Nat) (k : Block) : ∀ (ds : List Datum) (i : Nat) (ld : Loading) (pre : List (Option Spec.Lang.Sym)),
    (∀ d ∈ ds, EntryOk g d) → pre.length = i → ld.slots = pre ++ List.replicate ds.length none → ld.size = i + ds.length →
    entry funs (cTable g i ds k) ld = entry funs k { ld with slots := pre ++ ds.map fun d => some (symOf d) }
  | [], i, ld, pre, _, _, h, _ => by
    rw [cTable]
    congr 1
    cases ld
    simpa using h
  | d :: r, i, ld, pre, hd, hi, h, hz => by
    obtain ⟨s, rfl, hn, -, h0, -⟩ := hd d (by simp)
    have hname : tableName g (.sym (.named s)) = bytesOf s := hn
    rw [cTable, entry, hname]
    rw [if_pos ⟨rfl, rfl, rfl, rfl, by simp at hz; omega⟩]
    simp only [makeCString, upToNul_eq h0, fromUTF8_bytesOf]
    have hset : ld.slots.set i (some (Spec.Lang.Sym.named s)) = (pre ++ [some (.named s)]) ++ List.replicate r.length none := by
      rw [h, List.set_append_right _ _ (by omega), hi, Nat.sub_self, List.length_cons, List.replicate_succ, List.set_cons_zero]
      simp
    rw [entry_cTable funs k r (i + 1) _ (pre ++ [some (.named s)]) (fun x hx => hd x (by simp [hx])) (by simp [hi]) hset
      (by simp at hz ⊢; omega)]
    simp [symOf]

theorem allSome_map (l : List Spec.Lang.Sym) : allSome (l.map some) = some l := by
  induction l with
  | nil => rfl
  | cons a l ih => simp [allSome, ih]

theorem loadFile_cFile {g : Gen} {lams : List Lam} (h : FileOk g lams) :
    loadFile (cFile g lams) = some (g.globals.map symOf, lams.length - 1) := by
  have hpos : 0 < lams.length := List.length_pos_iff.mpr h.nonempty
  rw [loadFile, findEntry_cFile]
  simp only [Option.bind_eq_bind, Option.bind_some]
  rw [cEntry, entry, if_pos ⟨rfl, rfl, rfl⟩, entry, if_pos ⟨rfl, rfl, rfl, rfl, rfl⟩]
  rw [entry_cTable _ _ g.globals 0 _ [] h.table rfl (by simp) (by simp)]
  rw [entry, if_pos ⟨rfl, rfl, rfl, rfl⟩, entry, if_pos ⟨rfl, rfl, rfl⟩, funNumber_cFile g lams (by omega)]
  simp only
  rw [entry, if_pos ⟨rfl, rfl, rfl⟩, entry]
  have : (g.globals.map fun d => some (symOf d)) = (g.globals.map symOf).map some := by simp
  simp only [Option.bind_some, List.nil_append, this, allSome_map]
  simp

theorem loaded_cFile {g : Gen} {lams : List Lam} (unit : Nat) :
    Loaded g lams.length ⟨unit, g.globals.map symOf, funNumber (cFile g lams)⟩ :=
  ⟨rfl, fun _ hl => funNumber_cFile g lams hl⟩

theorem defines_append {a b : List Item} : (a ++ b).filterMap Item.defines = a.filterMap Item.defines ++ b.filterMap Item.defines :=
  List.filterMap_append

theorem valid_cFile {g : Gen} {lams : List Lam} (h : FileOk g lams) : valid headers (cFile g lams) = true := by
  rw [valid, cFile_ok h, Bool.true_and, decide_eq_true_eq]
  have h1 : (cAll (fun i _ => Item.proto (group i)) lams).filterMap Item.defines = [] := by
    rw [List.filterMap_eq_nil_iff]
    intro i hi
    obtain ⟨j, l, -, rfl⟩ := cAll_mem hi
    rfl
  have h2 : (cAll (fun i l => Item.func true (group i) (cBody g i l)) lams).filterMap Item.defines = cAll (fun i _ => group i) lams := by
    have : ∀ (f : Nat → Bytes) (b : Nat → Lam → Body) (ls : List Lam),
        (cAll (fun i l => Item.func true (f i) (b i l)) ls).filterMap Item.defines = cAll (fun i _ => f i) ls := by
      intro f b ls
      induction ls generalizing f b with
      | nil => rfl
      | cons l r ih => rw [cAll, cAll, List.filterMap_append, ih (fun i => f (i + 1)) (fun i => b (i + 1))]; rfl
    exact this group (fun i l => cBody g i l) lams
  have h3 : (cAll (fun i _ => group i) lams).Nodup := by
    rw [← List.reverse_reverse (cAll _ lams), List.nodup_iff_pairwise_ne, List.pairwise_reverse, cAll_reverse, List.pairwise_iff_getElem]
    intro i j hi hj hij e
    simp at e
    exact absurd (group_inj e) (by omega)
  rw [cFile, List.filterMap_cons_some (show Item.defines _ = some (txt "packageID") from rfl), List.filterMap_append, h1, List.nil_append,
    List.filterMap_cons_some (show Item.defines _ = some (txt "entry") from rfl), h2, List.nodup_cons, List.nodup_cons]
  refine ⟨?_, ?_, h3⟩
  · intro hm
    rcases List.mem_cons.mp hm with e | hm
    · revert e; decide
    · obtain ⟨j, l, -, e⟩ := cAll_mem hm
      exact group_not_mem (l := [txt "packageID"]) (by decide) j (by simp [e])
  · intro hm
    obtain ⟨j, l, -, e⟩ := cAll_mem hm
    exact group_not_mem (l := [txt "entry"]) (by decide) j (by simp [e])

end Cora.Compile
