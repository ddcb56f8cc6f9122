import Verif.Lemmas.Record
/-
C53: records.
-/
open Spec.Lang
namespace Cora.Record
open Cora.Macro hiding car cdr
variable {mt : Macros}

/-- the functions of the vector library are no macros -/
def VectorNames (mt : Macros) : Prop :=
  ∀ s ∈ ["vector", "vector?", "vector-length", "vector-ref", "vector-set!"], mt.fn (.named s) = none

theorem not_special_vector (hs : Std mt) (hv : VectorNames mt) {s : String}
    (h : s ∈ ["vector", "vector?", "vector-length", "vector-ref", "vector-set!"]) : ¬ special mt (.named s) := by
  rintro (h1 | h1 | h1)
  · simp at h h1
    rcases h with rfl | rfl | rfl | rfl | rfl <;> simp at h1
  · rw [hv s h] at h1; simp at h1
  · rw [hs.protect] at h1; cases h1

theorem ok_call (hs : Std mt) (hv : VectorNames mt) {s : String} {args : List Core}
    (h : s ∈ ["vector", "vector?", "vector-length", "vector-ref", "vector-set!"]) (ha : okCores (special mt) args) :
    okCore (special mt) (.app (gv s) args) :=
  ⟨by intro x hx; cases hx; exact not_special_vector hs hv h, trivial, ha⟩

theorem seqC_noImport : ∀ (cs : List Core) (c : Core), noImport c → (∀ x ∈ cs, noImport x) →
    (∀ p, ∀ x ∈ c :: cs, x ≠ .app (.var (.named "import")) [.lit (.str p)]) → noImport (seqC c cs)
  | [], c, h, _, _ => h
  | c' :: cs, c, h, h2, h3 =>
    ⟨fun p => h3 p c (by simp), h, seqC_noImport cs c' (h2 c' (by simp)) (fun x hx => h2 x (by simp [hx]))
      fun p x hx => h3 p x (by simp at hx ⊢; exact .inr hx)⟩

theorem okCores_of {sp : Sym → Prop} : ∀ {cs : List Core}, (∀ c ∈ cs, okCore sp c) → okCores sp cs
  | [], _ => trivial
  | c :: r, h => ⟨h c (by simp), okCores_of fun x hx => h x (by simp [hx])⟩

theorem make_becomes (hs : Std mt) (hv : VectorNames mt) (d : Decl) (k m : Nat) :
    Becomes mt (makeForm d m) k (defC d.constructor (.lam d.inits (makeBody d m))) := by
  have hset : ∀ i e, okCore (special mt) e → okCore (special mt) (setCall (.gen m) i e) := fun i e he =>
    ok_call hs hv (by simp) ⟨trivial, trivial, he, trivial⟩
  refine becomes_def hs ?_ ?_
  · refine turns_bind hs (turns_self hs (.app (gv "vector") [.lit (.int (1 + d.fields.length : Nat))]) k
      (ok_call hs hv (by simp) ⟨trivial, trivial⟩)) (turns_begin hs (hset 0 _ trivial) (okCores_of ?_))
    intro c hc
    simp only [makeSets, List.mem_append, List.mem_map, List.mem_singleton] at hc
    rcases hc with ⟨x, _, rfl⟩ | rfl
    · exact hset _ _ trivial
    · trivial
  · refine ⟨⟨trivial, trivial, trivial⟩, seqC_noImport _ _ ⟨trivial, trivial, trivial, trivial, trivial⟩ ?_ ?_⟩
    · intro c hc
      simp only [makeSets, List.mem_append, List.mem_map, List.mem_singleton] at hc
      rcases hc with ⟨x, _, rfl⟩ | rfl
      · exact ⟨trivial, trivial, trivial, trivial, trivial⟩
      · trivial
    · intro p c hc
      simp only [makeSets, List.mem_cons, List.mem_append, List.mem_map, List.not_mem_nil, or_false] at hc
      rcases hc with rfl | ⟨x, _, rfl⟩ | rfl <;> simp [setCall]

theorem nil_becomes (k : Nat) : Becomes mt .nil k (.lit .nil) :=
  becomes_turns (turns_lit .nil k) trivial (by simp)

theorem pred_becomes (hs : Std mt) (hv : VectorNames mt) (d : Decl) (k m : Nat) :
    Becomes mt (predForm d m) k (predCore d m) := by
  unfold predForm predCore
  cases d.predicate with
  | none => exact nil_becomes k
  | some p =>
    refine becomes_def hs (ps := [.gen (m + 1)]) ?_ ?_
    · refine turns_std hs (by decide) (by decide) rfl (g := fun e => (Cora.Macro.cdr e).bind rewriteAnd)
        (e1 := (predBody d m).form) ?_ ?_ (turns_self hs _ k ?_)
      · have := rewriteAnd_list [Datum.list [kw "vector?", .sym (.gen (m + 1))],
          .list [kw "=", .list [kw "vector-length", .sym (.gen (m + 1))], .int (1 + d.fields.length : Nat)],
          .list [kw "=", .list [kw "vector-ref", .sym (.gen (m + 1)), .int 0], .list [kw "quote", .sym d.type]]]
          (by simp [Datum.list])
        simp only [Datum.list] at this
        simp only [Cora.Macro.cdr, Option.bind_some, this]
        rfl
      · simp [predBody, Core.form, Datum.list, kw]
      · have heq : ∀ a b, okCore (special mt) a → okCore (special mt) b → okCore (special mt) (.app (gv "=") [a, b]) :=
          fun a b ha hb => ⟨by intro x hx; cases hx; exact not_special hs (by simp), trivial, ha, hb, trivial⟩
        refine ⟨ok_call hs hv (by simp) ⟨trivial, trivial⟩, ⟨heq _ _ (ok_call hs hv (by simp) ⟨trivial, trivial⟩) trivial,
          ⟨heq _ _ (ok_call hs hv (by simp) ⟨trivial, trivial, trivial⟩) trivial, trivial, trivial⟩, trivial⟩, trivial⟩
    · simp [predBody, noImport, noImports]

theorem get_becomes (hs : Std mt) (hv : VectorNames mt) (g : Sym) (j k m : Nat) :
    Becomes mt (.list [kw "defun", .sym g, .list [.sym (.gen m)], (getBody j m).form]) k
      (defC g (.lam [.gen m] (getBody j m))) :=
  becomes_def hs (ps := [.gen m]) (turns_self hs _ k (ok_call hs hv (by simp) ⟨trivial, trivial, trivial⟩))
    ⟨trivial, trivial, trivial, trivial⟩

theorem set_becomes (hs : Std mt) (hv : VectorNames mt) (g : Sym) (j k m : Nat) :
    Becomes mt (.list [kw "defun", .sym g, .list [.sym (.gen m), .sym (.gen (m + 1))], (setBody j m).form]) k
      (defC g (.lam [.gen m, .gen (m + 1)] (setBody j m))) :=
  becomes_def hs (ps := [.gen m, .gen (m + 1)])
    (turns_self hs _ k (ok_call hs hv (by simp) ⟨trivial, trivial, trivial, trivial⟩))
    ⟨trivial, trivial, trivial, trivial, trivial⟩

theorem fields_become (hs : Std mt) (hv : VectorNames mt) (k : Nat) : ∀ (fs : List Field) (j m : Nat),
    BecomesList mt k (fieldForms fs j m) (fieldCores fs j m)
  | [], _, _ => .nil
  | .plain x :: r, j, m => .cons (nil_becomes k) (fields_become hs hv k r _ _)
  | .readable x g :: r, j, m => .cons (get_becomes hs hv g j k m) (fields_become hs hv k r _ _)
  | .settable x g s :: r, j, m =>
    .cons (becomes_begin hs (get_becomes hs hv g j k m) (.cons (set_becomes hs hv s j k m) .nil)) (fields_become hs hv k r _ _)

theorem decl_becomes (hs : Std mt) (hv : VectorNames mt) (hm : mt.fn (.named "define-record") = some defineRecord)
    {d : Decl} (hnd : (d.fields.map Field.name).Nodup) (hex : ∀ x ∈ d.inits, x ∈ d.fields.map Field.name) (k : Nat) :
    ∃ N, ∀ n, N ≤ n → macroexpand mt n d.form k =
      some ((declCore d k).form, fieldsEnd d.fields (k + 2)) := by
  have hb := becomes_begin hs (make_becomes hs hv d (fieldsEnd d.fields (k + 2)) k)
    (.cons (pred_becomes hs hv d _ k) (fields_become hs hv _ d.fields 0 (k + 2)))
  obtain ⟨e, r, _, n⟩ := hb
  have hr : Runs mt d.form k e (fieldsEnd d.fields (k + 2)) := by
    refine runs_macro (hs.plain (by decide) (by decide)) hm ⟨0, fun n _ => defineRecord_eq hnd hex _⟩ ?_ r
    simp [Datum.list, kw]
  obtain ⟨N, hN⟩ := hr
  refine ⟨N + 1, fun n' hn => ?_⟩
  obtain ⟨n', rfl⟩ : ∃ m, n' = m + 1 := ⟨n' - 1, by omega⟩
  rw [macroexpand]
  simp only [bind, StateT.bind, hN n' (by omega), Option.bind_some, liftM, monadLift, MonadLift.monadLift, StateT.lift, n,
    pure]
  rfl

/-! ### what evaluating it does -/
variable {W : Type} {E : Ext W}

/-- set several global variables -/
def setAll (w : World W) : List (Sym × Val) → World W
  | [] => w
  | (x, v) :: r => setAll (w.set x v) r

theorem setAll_append (w : World W) : ∀ a b : List (Sym × Val), setAll w (a ++ b) = setAll (setAll w a) b
  | [], _ => rfl
  | (x, v) :: a, b => setAll_append (w.set x v) a b

theorem setAll_rest : ∀ (ds : List (Sym × Val)) (w : World W), (setAll w ds).rest = w.rest
  | [], _ => rfl
  | (x, v) :: r, w => setAll_rest r (w.set x v)

theorem setAll_globals (x : Sym) : ∀ (ds : List (Sym × Val)) (w : World W), (ds.map (·.1)).Nodup →
    (setAll w ds).globals x = (find x ds).or (w.globals x)
  | [], w, _ => by simp [setAll, find]
  | (y, v) :: r, w, h => by
    simp only [List.map_cons, List.nodup_cons] at h
    rw [setAll, setAll_globals x r _ h.2, find]
    by_cases e : y = x
    · subst e
      have : find y r = none := find_none_of_not_mem fun p hp hq => h.1 (List.mem_map.2 ⟨p, hp, hq⟩)
      simp [this, World.set]
    · simp [e, World.set, Ne.symm e]

theorem capture_empty : ∀ xs : List Sym, capture xs [] = []
  | [] => rfl
  | _ :: r => by simpa [capture, find] using capture_empty r

/-- evaluating `c` defines `ds` -/
def Defines (c : Core) (ds : List (Sym × Val)) : Prop :=
  ∀ {W : Type} (E : Ext W) (w : World W), ∃ v, Eval E [] w c v (setAll w ds)

theorem defines_def (x : Sym) (ps : List Sym) (b : Core) : Defines (defC x (.lam ps b)) [(x, .clo ps b [])] := by
  intro W E w
  refine ⟨.clo ps b [], (eval_prim_exact (p := "set") rfl rfl).2 ⟨[.sym x, .clo ps b []], w, ?_, rfl⟩⟩
  refine .cons _ _ _ _ _ _ _ _ (.quote ..) (.cons _ _ _ _ _ _ _ _ ?_ (.nil ..))
  exact eval_lam.2 ⟨by rw [capture_empty], rfl⟩

theorem defines_seq {a b : Core} {da db : List (Sym × Val)} (ha : Defines a da) (hb : Defines b db) :
    Defines (.seq a b) (da ++ db) := by
  intro W E w
  obtain ⟨u, h1⟩ := ha E w
  obtain ⟨v, h2⟩ := hb E (setAll w da)
  exact ⟨v, .seq _ _ _ _ _ _ _ _ h1 (by rw [setAll_append]; exact h2)⟩

theorem defines_nil : Defines (.lit .nil) [] := fun _ w => ⟨_, .lit _ w _⟩

theorem defines_fields : ∀ (fs : List Field) (j m : Nat) (c : Core) (dc : List (Sym × Val)), Defines c dc →
    Defines (seqC c (fieldCores fs j m)) (dc ++ fieldDefs fs j m)
  | [], j, m, c, dc, h => by simpa [seqC, fieldCores, fieldDefs] using h
  | .plain x :: r, j, m, c, dc, h => defines_seq h (defines_fields r (j + 1) m _ [] defines_nil)
  | .readable x g :: r, j, m, c, dc, h => defines_seq h (defines_fields r (j + 1) (m + 1) _ _ (defines_def _ _ _))
  | .settable x g s :: r, j, m, c, dc, h =>
    defines_seq h (defines_fields r (j + 1) (m + 2) _ _ (defines_seq (defines_def _ _ _) (defines_def _ _ _)))

theorem defines_decl (d : Decl) (k : Nat) : Defines (declCore d k) (defs d k) := by
  refine defines_seq (defines_def _ _ _) (defines_fields _ _ _ _ _ ?_)
  unfold predCore predDefs
  cases d.predicate with
  | none => exact defines_nil
  | some p => exact defines_def _ _ _

theorem fieldDefs_names : ∀ (fs : List Field) (j m : Nat),
    (fieldDefs fs j m).map (·.1) = fs.flatMap fun f => f.getter.toList ++ f.setter.toList
  | [], _, _ => rfl
  | .plain x :: r, j, m => by simp [fieldDefs, fieldDefs_names r, Field.getter, Field.setter]
  | .readable x g :: r, j, m => by simp [fieldDefs, fieldDefs_names r, Field.getter, Field.setter]
  | .settable x g s :: r, j, m => by simp [fieldDefs, fieldDefs_names r, Field.getter, Field.setter]

theorem defs_names (d : Decl) (k : Nat) : (defs d k).map (·.1) = d.names := by
  simp only [defs, List.map_cons, List.map_append, fieldDefs_names, Decl.names, predDefs]
  cases d.predicate <;> simp

/-! ### the functions work -/

theorem find_mem {x : Sym} {v : Val} : ∀ {ds : List (Sym × Val)}, (ds.map (·.1)).Nodup → (x, v) ∈ ds → find x ds = some v
  | (y, u) :: r, h, hm => by
    simp only [List.map_cons, List.nodup_cons] at h
    rcases List.mem_cons.1 hm with e | hm
    · cases e; simp [find]
    · have : y ≠ x := fun e => h.1 (e ▸ List.mem_map.2 ⟨_, hm, rfl⟩)
      simp [find, this, find_mem h.2 hm]

theorem fieldDefs_get : ∀ (fs : List Field) (j m i : Nat) (f : Field) (g : Sym), fs[i]? = some f → f.getter = some g →
    ∃ k, (g, Val.clo [.gen k] (getBody (j + i) k) []) ∈ fieldDefs fs j m
  | [], _, _, _, _, _, h, _ => by simp at h
  | f' :: r, j, m, 0, f, g, h, hg => by
    simp at h; subst h
    cases f' with
    | plain x => simp [Field.getter] at hg
    | readable x y => simp [Field.getter] at hg; subst hg; exact ⟨m, by simp [fieldDefs]⟩
    | settable x y s => simp [Field.getter] at hg; subst hg; exact ⟨m, by simp [fieldDefs]⟩
  | f' :: r, j, m, i + 1, f, g, h, hg => by
    simp at h
    have e : j + (i + 1) = j + 1 + i := by omega
    rw [e]
    cases f' with
    | plain x => obtain ⟨k, hk⟩ := fieldDefs_get r (j + 1) m i f g h hg; exact ⟨k, by simpa [fieldDefs] using hk⟩
    | readable x y =>
      obtain ⟨k, hk⟩ := fieldDefs_get r (j + 1) (m + 1) i f g h hg; exact ⟨k, by simp [fieldDefs, hk]⟩
    | settable x y s =>
      obtain ⟨k, hk⟩ := fieldDefs_get r (j + 1) (m + 2) i f g h hg; exact ⟨k, by simp [fieldDefs, hk]⟩

theorem fieldDefs_set : ∀ (fs : List Field) (j m i : Nat) (f : Field) (g : Sym), fs[i]? = some f → f.setter = some g →
    ∃ k, (g, Val.clo [.gen k, .gen (k + 1)] (setBody (j + i) k) []) ∈ fieldDefs fs j m
  | [], _, _, _, _, _, h, _ => by simp at h
  | f' :: r, j, m, 0, f, g, h, hg => by
    simp at h; subst h
    cases f' with
    | plain x => simp [Field.setter] at hg
    | readable x y => simp [Field.setter] at hg
    | settable x y s => simp [Field.setter] at hg; subst hg; exact ⟨m, by simp [fieldDefs]⟩
  | f' :: r, j, m, i + 1, f, g, h, hg => by
    simp at h
    have e : j + (i + 1) = j + 1 + i := by omega
    rw [e]
    cases f' with
    | plain x => obtain ⟨k, hk⟩ := fieldDefs_set r (j + 1) m i f g h hg; exact ⟨k, by simpa [fieldDefs] using hk⟩
    | readable x y =>
      obtain ⟨k, hk⟩ := fieldDefs_set r (j + 1) (m + 1) i f g h hg; exact ⟨k, by simp [fieldDefs, hk]⟩
    | settable x y s =>
      obtain ⟨k, hk⟩ := fieldDefs_set r (j + 1) (m + 2) i f g h hg; exact ⟨k, by simp [fieldDefs, hk]⟩

/-- a call of a function of the outside through its global name -/
theorem call_native {env : Env} {w w1 w2 : World W} {s : String} {id n : Nat} {args : List Core} {vs : List Val} {v : Val}
    (hp : primArity s = none) (hl : find (.named s) env = none) (hg : w.globals (.named s) = some (.native id n))
    (ha : EvalArgs E env w args vs w1) (hn : vs.length = n) (hc : E.native id vs w1 = some (v, w2)) :
    Eval E env w (.app (gv s) args) v w2 :=
  .app _ _ _ _ _ _ _ _ _ _ (by simp [Core.primOf, hp]) (.global _ _ _ _ hl hg) ha (.native _ _ _ _ _ _ hn hc)

theorem int_lit (env : Env) (w : World W) (n : Int) : Eval E env w (.lit (.int n)) (.int n) w := .lit ..

theorem loaded_mono {V : Vectors E} {w w' : World W} (h : V.Loaded w) (hg : w'.globals = w.globals) : V.Loaded w' := by
  constructor <;> rw [hg]
  · exact h.vector
  · exact h.isVector
  · exact h.length
  · exact h.ref
  · exact h.set

theorem set_eval (V : Vectors E) {env : Env} {w : World W} (hV : V.Loaded w) (hl : find (.named "vector-set!") env = none)
    {ret : Sym} {l : Nat} (hr : find ret env = some (V.obj l)) {i : Nat} {e : Core} {v : Val} (he : Eval E env w e v w)
    {xs : List Val} (hx : V.heap w.rest l = some xs) (hi : i < xs.length) :
    ∃ r w', Eval E env w (setCall ret i e) r w' ∧ w'.globals = w.globals ∧
      ∀ l', V.heap w'.rest l' = if l' = l then some (xs.set i v) else V.heap w.rest l' := by
  obtain ⟨r, w', h1, h2, h3⟩ := V.set_law w l xs i v hx hi
  exact ⟨r, w', call_native rfl hl hV.set (.cons _ _ _ _ _ _ _ _ (.local _ _ _ _ hr) (.cons _ _ _ _ _ _ _ _ (int_lit ..)
    (.cons _ _ _ _ _ _ _ _ he (.nil ..)))) rfl h1, h2, h3⟩

/-- what the assignments of the constructor do to the contents -/
def fill (d : Decl) (env : Env) : List Sym → List Val → List Val
  | [], xs => xs
  | x :: r, xs => fill d env r (match find x env with | some v => xs.set (1 + index d x) v | none => xs)

theorem makeSets_eval (V : Vectors E) (d : Decl) {env : Env} (hl : find (.named "vector-set!") env = none)
    {ret : Sym} {l : Nat} (hr : find ret env = some (V.obj l)) : ∀ (ys : List Sym) (c : Core) (w : World W) (xs : List Val) (w1 : World W) (u : Val),
      (∀ y ∈ ys, (find y env).isSome ∧ 1 + index d y < xs.length) → V.Loaded w1 → Eval E env w c u w1 →
      V.heap w1.rest l = some xs →
      ∃ w', Eval E env w (seqC c ((ys.map fun x => setCall ret (1 + index d x) (.var x)) ++ [.var ret])) (V.obj l) w' ∧
        w'.globals = w1.globals ∧ ∀ l', V.heap w'.rest l' = if l' = l then some (fill d env ys xs) else V.heap w1.rest l'
  | [], c, w, xs, w1, u, _, hV, hc, hx => by
    refine ⟨w1, .seq _ _ _ _ _ _ _ _ hc (.local _ _ _ _ hr), rfl, fun l' => ?_⟩
    split
    · rename_i e; rw [e, hx]; rfl
    · rfl
  | y :: ys, c, w, xs, w1, u, hys, hV, hc, hx => by
    obtain ⟨hy, hi⟩ := hys y (by simp)
    obtain ⟨v, hv⟩ := Option.isSome_iff_exists.1 hy
    obtain ⟨r, w2, h1, h2, h3⟩ := set_eval V hV hl hr (e := .var y) (.local _ _ _ _ hv) hx hi
    obtain ⟨w', h4, h5, h6⟩ := makeSets_eval V d hl hr ys (setCall ret (1 + index d y) (.var y)) w1
      (xs.set (1 + index d y) v) w2 r (by intro z hz; simpa using hys z (by simp [hz])) (loaded_mono hV h2) h1 (by rw [h3]; simp)
    refine ⟨w', .seq _ _ _ _ _ _ _ _ hc h4, by rw [h5, h2], fun l' => ?_⟩
    rw [h6, h3]
    split
    · simp [fill, hv]
    · rename_i e; simp

theorem fill_length (d : Decl) (env : Env) : ∀ (ys : List Sym) (xs : List Val), (fill d env ys xs).length = xs.length
  | [], _ => rfl
  | y :: ys, xs => by
    rw [fill, fill_length d env ys]
    split <;> simp

theorem fill_other (d : Decl) (env : Env) {i : Nat} : ∀ (ys : List Sym) (xs : List Val), (∀ y ∈ ys, 1 + index d y ≠ i) →
    (fill d env ys xs)[i]? = xs[i]?
  | [], _, _ => rfl
  | y :: ys, xs, h => by
    rw [fill, fill_other d env ys _ fun z hz => h z (by simp [hz])]
    split
    · rw [List.getElem?_set_ne (h y (by simp))]
    · rfl

theorem fill_at (d : Decl) (env : Env) {y : Sym} {v : Val} (hv : find y env = some v) : ∀ (ys : List Sym) (xs : List Val),
    y ∈ ys → (∀ z ∈ ys, index d z = index d y → z = y) → 1 + index d y < xs.length →
    (fill d env ys xs)[1 + index d y]? = some v
  | [], _, h, _, _ => by simp at h
  | z :: ys, xs, h, hi, hlt => by
    rw [fill]
    by_cases hm : y ∈ ys
    · refine fill_at d env hv ys _ hm (fun z hz => hi z (by simp [hz])) ?_
      split <;> simpa using hlt
    · have : z = y := by simp at h; rcases h with h | h; exact h.symm; exact absurd h hm
      subst this
      rw [fill_other d env ys]
      · simp only [hv]
        rw [List.getElem?_set_self hlt]
      · intro u hu e
        exact hm (hi u (by simp [hu]) (by omega) ▸ hu)

theorem find_zip_append (y : Sym) (rest : Env) : ∀ (ps : List Sym) (args : List Val) (i : Nat), args.length = ps.length → ps.Nodup →
    ps[i]? = some y → find y ((ps.zip args).reverse ++ rest) = args[i]?
  | [], _, _, _, _, h => by simp at h
  | p :: ps, [], _, h, _, _ => by simp at h
  | p :: ps, a :: args, i, hlen, hnd, h => by
    simp only [List.nodup_cons] at hnd
    have key : ∀ rest, find y ((ps.zip args).reverse ++ ((p, a) :: rest)) =
        (find y (ps.zip args).reverse).or (if p = y then some a else find y rest) := by
      intro rest; rw [find_append]; rfl
    simp only [List.zip_cons_cons, List.reverse_cons, List.append_assoc, List.singleton_append, key]
    cases i with
    | zero =>
      simp at h
      subst h
      have : find p (ps.zip args).reverse = none := by
        refine find_none_of_not_mem fun q hq e => ?_
        have := (List.of_mem_zip (a := q.1) (b := q.2) (by simpa using hq)).1
        exact hnd.1 (e ▸ this)
      simp [this]
    | succ i =>
      simp at h
      have hlen' : args.length = ps.length := by simpa using hlen
      have ih := find_zip_append y [] ps args i hlen' hnd.2 h
      simp only [List.append_nil] at ih
      rw [ih]
      have : i < args.length := by rw [hlen']; exact (List.getElem?_eq_some_iff.1 h).1
      simp [List.getElem?_eq_getElem this]

theorem find_zip_none (y : Sym) (ps : List Sym) (args : List Val) (h : y ∉ ps) :
    find y ((ps.zip args).reverse ++ []) = none := by
  refine find_none_of_not_mem fun q hq e => ?_
  simp only [List.append_nil, List.mem_reverse] at hq
  exact h (e ▸ (List.of_mem_zip (a := q.1) (b := q.2) hq).1)

theorem implements_defs (V : Vectors E) {d : Decl} {k : Nat} (hd : d.ok k) : Implements V d (defs d k) where
  construct := by
    refine ⟨.clo d.inits (makeBody d k) [], by simp [defs, find], fun w hV args hargs => ?_⟩
    let env0 : Env := (d.inits.zip args).reverse ++ []
    obtain ⟨l, xs, w1, hn, hfree, hlen, hg1, hheap⟩ := V.vector_law w (1 + d.fields.length)
    let env : Env := (.gen k, V.obj l) :: env0
    have hV1 : V.Loaded w1 := loaded_mono hV hg1
    have hnone : ∀ s, Sym.named s ∉ d.inits → find (.named s) env = none := by
      intro s hs
      simp only [env, find, reduceCtorEq, if_false]
      exact find_zip_none _ _ _ hs
    have hret : find (.gen k) env = some (V.obj l) := by simp [env, find]
    have harg : ∀ (i : Nat) y, d.inits[i]? = some y → find y env = args[i]? := by
      intro i y hy
      have hne : Sym.gen k ≠ y := by
        rintro rfl; exact hd.old k (Nat.le_refl k) (List.mem_of_getElem? hy)
      simp only [env, find, hne, if_false]
      exact find_zip_append y [] d.inits args i hargs hd.inits hy
    have hidx : ∀ y ∈ d.inits, 1 + index d y < xs.length := by
      intro y hy
      have := List.idxOf_lt_length_iff.2 (hd.exist y hy)
      simp only [List.length_map] at this
      rw [hlen]; unfold index; omega
    obtain ⟨r2, w2, hs1, hs2, hs3⟩ := set_eval V hV1 (hnone _ hd.shadow.2) hret (i := 0) (e := .quote (.sym d.type))
      (v := .sym d.type) (.quote ..) (xs := xs) (by rw [hheap]; simp) (by omega)
    obtain ⟨w', h4, h5, h6⟩ := makeSets_eval V d (hnone _ hd.shadow.2) hret d.inits _ w1 (xs.set 0 (.sym d.type)) w2 r2
      (by
        intro y hy
        obtain ⟨i, hi⟩ := List.getElem?_of_mem hy
        refine ⟨?_, by simpa using hidx y hy⟩
        rw [harg i y hi, List.getElem?_eq_getElem (by rw [hargs]; exact (List.getElem?_eq_some_iff.1 hi).1)]
        rfl) (loaded_mono hV1 hs2) hs1 (by rw [hs3]; simp)
    generalize hys : fill d env d.inits (xs.set 0 (.sym d.type)) = ys at h6
    have hyl : ys.length = 1 + d.fields.length := by rw [← hys, fill_length]; simp [hlen]
    have hy0 : ys[0]? = some (.sym d.type) := by
      rw [← hys, fill_other _ _ _ _ (by intro y _; omega), List.getElem?_set_self (by omega)]
    obtain ⟨values, rfl⟩ : ∃ values, ys = .sym d.type :: values := by
      cases ys with
      | nil => simp at hyl; omega
      | cons a r => simp at hy0; exact ⟨r, by rw [hy0]⟩
    refine ⟨l, values, w', ?_, by rw [h5, hs2, hg1], hfree, ⟨l, rfl, by rw [h6]; simp, by simp at hyl; omega⟩, ?_, ?_⟩
    · refine (apply_clo_exact hargs).2 (.bind _ _ _ _ _ (V.obj l) _ w1 _ ?_ h4)
      refine call_native rfl ?_ hV.vector (.cons _ _ _ _ _ _ _ _ (int_lit ..) (.nil ..)) rfl hn
      exact find_zip_none _ _ _ hd.shadow.1
    · intro l' hne
      rw [h6, if_neg hne, hs3, if_neg hne, hheap, if_neg hne]
    · intro i j x hi hj
      have hxm : x ∈ d.inits := List.mem_of_getElem? hi
      have hji : index d x = j := by
        unfold index
        obtain ⟨hlt, e⟩ := List.getElem?_eq_some_iff.1 hj
        rw [← e]
        exact hd.fields.idxOf_getElem j hlt
      obtain ⟨hlt, e⟩ := List.getElem?_eq_some_iff.1 hi
      have ha : args[i]? = some (args[i]'(by omega)) := List.getElem?_eq_getElem _
      have := fill_at d env (y := x) (v := args[i]'(by omega)) (by rw [harg i x hi, ha]) d.inits
        (xs.set 0 (.sym d.type)) hxm
        (by
          intro z hz e
          have h1 := List.getElem_idxOf (List.idxOf_lt_length_iff.2 (hd.exist z hz))
          have h2 := List.getElem_idxOf (List.idxOf_lt_length_iff.2 (hd.exist x hxm))
          unfold index at e
          rw [← h1, ← h2]
          simp [e]) (by simpa using hidx x hxm)
      rw [hys, hji, Nat.add_comm 1 j] at this
      rw [ha, ← this]
      simp
  predicate := by
    intro p hp
    refine ⟨.clo [.gen (k + 1)] (predBody d k) [], ?_, fun w hV v => ?_⟩
    · refine find_mem (by rw [defs_names]; exact hd.names) ?_
      simp [defs, predDefs, hp]
    · obtain ⟨b, hb, hiff⟩ := V.isVector_law w v
      have hfind : find (.gen (k + 1)) ([(.gen (k + 1), v)] : Env) = some v := by simp [find]
      have hnf : ∀ s, find (.named s) ([(.gen (k + 1), v)] : Env) = none := fun s => by simp [find]
      have e1 : Eval E [(.gen (k + 1), v)] w (.app (gv "vector?") [.var (.gen (k + 1))]) (.bool b) w :=
        call_native rfl (hnf _) hV.isVector (.cons _ _ _ _ _ _ _ _ (.local _ _ _ _ hfind) (.nil ..)) rfl hb
      cases b with
      | false =>
        refine ⟨false, (apply_clo_exact rfl).2 (.else _ _ _ _ _ _ _ _ _ e1 (by simp) (.lit ..)), by simp, ?_⟩
        rintro ⟨values, l, rfl, h, _⟩
        exact hiff.2 ⟨l, _, rfl, h⟩
      | true =>
        obtain ⟨l, xs, rfl, hx⟩ := hiff.1 rfl
        have eqn : ∀ {a b : Core} {u1 u2 : Val} (x1 : Option Datum) (x2 : Datum) (_ : u1.datum = x1) (_ : u2.datum = some x2)
            (_ : Eval E [(.gen (k + 1), V.obj l)] w a u1 w) (_ : Eval E [(.gen (k + 1), V.obj l)] w b u2 w),
            Eval E [(.gen (k + 1), V.obj l)] w (.app (gv "=") [a, b]) (.bool (decide (x1 = some x2))) w := by
          intro a b u1 u2 x1 x2 h1 h2 ea eb
          refine (eval_prim_exact (p := "=") (by simp [Core.primOf, find, primArity]) rfl).2 ⟨[u1, u2], w,
            .cons _ _ _ _ _ _ _ _ ea (.cons _ _ _ _ _ _ _ _ eb (.nil ..)), ?_⟩
          cases x1 <;> simp [primApply, h1, h2]
        have e2 := eqn (a := .app (gv "vector-length") [.var (.gen (k + 1))]) (b := .lit (.int (1 + d.fields.length : Nat)))
          (u1 := .int xs.length) (u2 := .int (1 + d.fields.length : Nat)) _ _ rfl rfl
          (call_native rfl (hnf _) hV.length (.cons _ _ _ _ _ _ _ _ (.local _ _ _ _ hfind) (.nil ..)) rfl (V.length_law w l xs hx))
          (int_lit ..)
        by_cases hl : xs.length = 1 + d.fields.length
        · have hne : 0 < xs.length := by omega
          have e3 := eqn (a := .app (gv "vector-ref") [.var (.gen (k + 1)), .lit (.int 0)]) (b := .quote (.sym d.type))
            (u1 := xs[0]) (u2 := .sym d.type) _ _ rfl rfl
            (call_native rfl (hnf _) hV.ref (.cons _ _ _ _ _ _ _ _ (.local _ _ _ _ hfind) (.cons _ _ _ _ _ _ _ _ (int_lit ..)
              (.nil ..))) rfl (V.ref_law w l xs 0 _ hx (List.getElem?_eq_getElem hne)))
            (.quote ..)
          rw [show decide ((Val.int xs.length).datum = some (Datum.int (1 + d.fields.length : Nat))) = true from
            decide_eq_true (by rw [hl]; rfl)] at e2
          have hd0 : (xs[0].datum = some (.sym d.type)) ↔ xs[0] = .sym d.type := by
            cases h : xs[0] <;> simp [Val.datum]
            split <;> simp
          by_cases ht : xs[0] = .sym d.type
          · rw [decide_eq_true (hd0.2 ht)] at e3
            refine ⟨true, (apply_clo_exact rfl).2 (.then _ _ _ _ _ _ _ _ e1 (.then _ _ _ _ _ _ _ _ e2
              (.then _ _ _ _ _ _ _ _ e3 (.lit ..)))), ?_, fun _ => rfl⟩
            intro _
            cases xs with
            | nil => simp at hne
            | cons a r =>
              simp at ht
              subst ht
              exact ⟨r, l, rfl, hx, by simp at hl; omega⟩
          · rw [decide_eq_false (fun e => ht (hd0.1 e))] at e3
            refine ⟨false, (apply_clo_exact rfl).2 (.then _ _ _ _ _ _ _ _ e1 (.then _ _ _ _ _ _ _ _ e2
              (.else _ _ _ _ _ _ _ _ _ e3 (by simp) (.lit ..)))), by simp, ?_⟩
            rintro ⟨values, l', e, h, _⟩
            cases V.inj _ _ e
            rw [hx] at h
            cases h
            simp at ht
        · rw [decide_eq_false (by simp [Val.datum]; omega)] at e2
          refine ⟨false, (apply_clo_exact rfl).2 (.then _ _ _ _ _ _ _ _ e1 (.else _ _ _ _ _ _ _ _ _ e2 (by simp) (.lit ..))),
            by simp, ?_⟩
          rintro ⟨values, l', e, h, h2⟩
          cases V.inj _ _ e
          rw [hx] at h
          cases h
          simp [h2] at hl
          omega
  get := by
    intro j fd g hj hg
    obtain ⟨m, hm⟩ := fieldDefs_get d.fields 0 (k + 2) j fd g hj hg
    simp only [Nat.zero_add] at hm
    refine ⟨_, find_mem (by rw [defs_names]; exact hd.names) (by simp only [defs, List.mem_cons, List.mem_append]; exact .inr (.inr hm)), fun w hV v values hr => ?_⟩
    obtain ⟨l, rfl, hx, hlen⟩ := hr
    have hlt : j < values.length := by rw [hlen]; exact (List.getElem?_eq_some_iff.1 hj).1
    refine ⟨values[j], List.getElem?_eq_getElem hlt, (apply_clo_exact rfl).2 ?_⟩
    exact call_native rfl (by simp [find]) hV.ref (.cons _ _ _ _ _ _ _ _ (.local _ _ _ _ (by simp [find])) (.cons _ _ _ _ _ _ _ _ (int_lit ..)
      (.nil ..))) rfl (V.ref_law w l _ (j + 1) _ hx (by simp [hlt]))
  set := by
    intro j fd g hj hg
    obtain ⟨m, hm⟩ := fieldDefs_set d.fields 0 (k + 2) j fd g hj hg
    simp only [Nat.zero_add] at hm
    refine ⟨_, find_mem (by rw [defs_names]; exact hd.names) (by simp only [defs, List.mem_cons, List.mem_append]; exact .inr (.inr hm)), fun w hV v values x hr => ?_⟩
    obtain ⟨l, rfl, hx, hlen⟩ := hr
    have hlt : j < values.length := by rw [hlen]; exact (List.getElem?_eq_some_iff.1 hj).1
    obtain ⟨r, w', h1, h2, h3⟩ := V.set_law w l _ (j + 1) x hx (by simp; omega)
    refine ⟨r, w', (apply_clo_exact rfl).2 ?_, h2, ⟨l, rfl, by rw [h3]; simp, by simp [hlen]⟩, ?_⟩
    · refine call_native rfl (by simp [find]) hV.set (.cons _ _ _ _ _ _ _ _ (.local _ _ _ (V.obj l) ?_) (.cons _ _ _ _ _ _ _ _ (int_lit ..)
        (.cons _ _ _ _ _ _ _ _ (.local _ _ _ x ?_) (.nil ..)))) rfl h1
      · simp [find]
      · simp [find]
    · intro l' hne
      rw [h3, if_neg (fun e => hne (by rw [e]))]

/-! ### C53 -/

/-- **C53**: a record declaration expands to definitions of exactly the functions it names, and they work as declared: the
constructor makes a new record and fills the named fields, a getter returns its field, a setter changes its field and
nothing else, and the predicate holds for the vectors tagged with the name of the type and of its size. Partial: that
last set can contain other values than those the constructor made (`C53_forged`), and names are restricted by `Decl.ok`. -/
theorem C53_records_partial (hs : Std mt) (hv : VectorNames mt)
    (hm : mt.fn (.named "define-record") = some defineRecord) {d : Decl} {k : Nat} (hd : d.ok k) :
    ∃ c k' fs, (∃ N, ∀ n, N ≤ n → macroexpand mt n d.form k = some (c.form, k')) ∧ fs.map (·.1) = d.names ∧
      (∀ {W : Type} (E : Ext W) (w : World W), ∃ v w', Eval E [] w c v w' ∧ w'.rest = w.rest ∧
        ∀ x, w'.globals x = (find x fs).or (w.globals x)) ∧
      ∀ {W : Type} (E : Ext W) (V : Vectors E), Implements V d fs := by
  refine ⟨declCore d k, _, defs d k, decl_becomes hs hv hm hd.fields hd.exist k, defs_names d k, ?_,
    fun E V => implements_defs V hd⟩
  intro W E w
  obtain ⟨v, h⟩ := defines_decl d k E w
  exact ⟨v, _, h, setAll_rest _ _, fun x => setAll_globals x _ _ (by rw [defs_names]; exact hd.names)⟩

/-- **C53**: whatever is assigned to fields of any records, in whatever order, afterwards a getter returns the value
last assigned to that field of that record, or else the one it had before -/
theorem C53_last_assigned {V : Vectors E} {d : Decl} {fs : List (Sym × Val)} (hi : Implements V d fs)
    {l j : Nat} {fd : Field} {g : Sym} {f : Val} (hj : d.fields[j]? = some fd) (hg : fd.getter = some g)
    (hf : find g fs = some f) :
    ∀ {ops : List (Val × Nat × Val)} {w w' : World W}, Assigns E d fs w ops w' → V.Loaded w →
      (∀ op ∈ ops, ∃ values, IsRecord V d w op.1 values) →
      ∀ {values : List Val} {old : Val}, IsRecord V d w (V.obj l) values → values[j]? = some old →
      ∃ now, Apply E w' f [V.obj l] now w' ∧ lastAssigned V.obj l j ops old now := by
  intro ops w w' ha
  induction ha with
  | nil w =>
    intro hV _ values old hr ho
    obtain ⟨f', hf', h⟩ := hi.get j fd g hj hg
    rw [hf] at hf'; cases hf'
    obtain ⟨x, hx, hap⟩ := h w hV _ _ hr
    rw [ho] at hx; cases hx
    exact ⟨old, hap, rfl⟩
  | cons w v i x fd1 s f1 r w1 w2 ops h1 h2 h3 h4 _ ih =>
    intro hV hops values old hr ho
    obtain ⟨f', hf', h⟩ := hi.set i fd1 s h1 h2
    rw [h3] at hf'; cases hf'
    obtain ⟨vals, hvr⟩ := hops _ (List.mem_cons_self ..)
    obtain ⟨r', w1', hap, hgl, hrec, hoth⟩ := h w hV v vals x hvr
    obtain ⟨rfl, rfl⟩ := apply_det hap h4
    have hV1 := loaded_mono hV hgl
    have hops1 : ∀ op ∈ ops, ∃ values, IsRecord V d w1' op.1 values := by
      intro op hop
      obtain ⟨vs, l1, e1, e2, e3⟩ := hops op (by simp [hop])
      by_cases hv : v = V.obj l1
      · exact ⟨_, by rw [e1, ← hv]; exact hrec⟩
      · exact ⟨vs, l1, e1, by rw [hoth l1 hv]; exact e2, e3⟩
    by_cases hv : v = V.obj l
    · subst hv
      obtain ⟨l1, e1, e2, e3⟩ := hvr
      obtain ⟨l2, e4, e5, e6⟩ := hr
      cases V.inj _ _ e1
      cases V.inj _ _ e4
      rw [e2] at e5
      cases e5
      have hlt := (List.getElem?_eq_some_iff.1 ho).1
      by_cases hij : i = j
      · subst hij
        obtain ⟨now, a1, a2⟩ := ih hV1 hops1 (old := x) hrec (List.getElem?_set_self hlt)
        exact ⟨now, a1, fun _ => a2, fun hn => absurd ⟨rfl, rfl⟩ hn⟩
      · obtain ⟨now, a1, a2⟩ := ih hV1 hops1 (old := old) hrec (by rw [List.getElem?_set_ne hij]; exact ho)
        exact ⟨now, a1, fun hn => absurd hn.2 hij, fun _ => a2⟩
    · obtain ⟨l2, e4, e5, e6⟩ := hr
      cases V.inj _ _ e4
      obtain ⟨now, a1, a2⟩ := ih hV1 hops1 (old := old) ⟨l, rfl, by rw [hoth l hv]; exact e5, e6⟩ ho
      exact ⟨now, a1, fun hn => absurd hn.1 hv, fun _ => a2⟩

/-- the predicate does not recognise only its own records: two types of the same name and size accept each other's -/
theorem C53_forged {V : Vectors E} {d d' : Decl} {fs : List (Sym × Val)} (hi : Implements V d fs)
    (ht : d'.type = d.type) (hn : d'.fields.length = d.fields.length) {p : Sym} (hp : d.predicate = some p) :
    ∃ f, find p fs = some f ∧ ∀ (w : World W), V.Loaded w → ∀ v values, IsRecord V d' w v values →
      Apply E w f [v] (.bool true) w := by
  obtain ⟨f, hf, h⟩ := hi.predicate p hp
  refine ⟨f, hf, fun w hV v values ⟨l, e1, e2, e3⟩ => ?_⟩
  obtain ⟨b, hb, hiff⟩ := h w hV v
  rwa [hiff.2 ⟨values, l, e1, by rw [← ht]; exact e2, by omega⟩] at hb

/-- `(define-record box (make-box vector) false (vector))` -/
def boxDecl : Decl := ⟨.named "box", .named "make-box", [.named "vector"], none, [.plain (.named "vector")]⟩

/-- a field may not be named `vector`: the parameter of the constructor hides the function that makes the record, and the
constructor fails for every argument that is not a function -/
theorem C53_field_named_vector (hs : Std mt) (hv : VectorNames mt)
    (hm : mt.fn (.named "define-record") = some defineRecord) (k : Nat) :
    ∃ c k' f, (∃ N, ∀ n, N ≤ n → macroexpand mt n boxDecl.form k = some (c.form, k')) ∧
      ∀ {W : Type} (E : Ext W) (w : World W), ∃ v w', Eval E [] w c v w' ∧ w'.globals (.named "make-box") = some f ∧
        ∀ w n r w1, ¬ Apply E w f [.int n] r w1 := by
  refine ⟨declCore boxDecl k, _, .clo boxDecl.inits (makeBody boxDecl k) [],
    decl_becomes hs hv hm (by simp [boxDecl]) (by simp [boxDecl, Field.name]) k, ?_⟩
  intro W E w
  obtain ⟨v, h⟩ := defines_decl boxDecl k E w
  refine ⟨v, _, h, ?_, ?_⟩
  · rw [setAll_globals _ _ _ (by rw [defs_names]; simp [boxDecl, Decl.names, Field.getter, Field.setter])]
    simp [defs, find, boxDecl]
  · intro w n r w1 h
    obtain ⟨u, w2, h1, _⟩ := eval_bind.1 ((apply_clo_exact rfl).1 h)
    obtain ⟨g, vs, w3, w4, hg, ha, hap⟩ := (eval_app (by rfl)).1 h1
    obtain ⟨rfl, rfl⟩ := (eval_local (u := .int n) (by rfl)).1 hg
    have hl := evalArgs_length ha
    cases hap <;> simp_all [Val.arity]

/-! ### the hypotheses are met -/

/-- vectors as a list of lists -/
def listExt : Ext (List (List Val)) where
  prim _ _ _ := none
  native id args w :=
    match id, args with
    | 0, [.int n] => if n < 0 then none else
        some (.native (5 + w.rest.length) 0, { w with rest := w.rest ++ [List.replicate n.toNat .nil] })
    | 1, [v] => some (.bool (match v with | .native (l + 5) 0 => (w.rest[l]?).isSome | _ => false), w)
    | 2, [.native (l + 5) 0] => (w.rest[l]?).map fun xs => (.int xs.length, w)
    | 3, [.native (l + 5) 0, .int i] => if i < 0 then none else (w.rest[l]?).bind fun xs => (xs[i.toNat]?).map fun v => (v, w)
    | 4, [.native (l + 5) 0, .int i, v] => if i < 0 then none else
        (w.rest[l]?).map fun xs => (v, { w with rest := w.rest.set l (xs.set i.toNat v) })
    | _, _ => none

def listVectors : Vectors listExt where
  obj l := .native (l + 5) 0
  heap w l := w[l]?
  vector := 0
  isVector := 1
  length := 2
  ref := 3
  set := 4
  inj := by intro l l' h; simpa using h
  vector_law := by
    intro w n
    refine ⟨w.rest.length, List.replicate n .nil, { w with rest := w.rest ++ [List.replicate n .nil] }, ?_, by simp, by simp,
      rfl, ?_⟩
    · have : ¬ ((n : Int) < 0) := by omega
      simp [listExt, this, Nat.add_comm]
    · intro l'
      by_cases h : l' = w.rest.length
      · simp [h]
      · rw [if_neg h]
        by_cases h2 : l' < w.rest.length
        · rw [List.getElem?_append_left h2]
        · rw [List.getElem?_eq_none (by simp; omega), List.getElem?_eq_none (by omega)]
  isVector_law := by
    intro w v
    refine ⟨_, rfl, ?_⟩
    split
    · rename_i l
      simp only [Option.isSome_iff_exists]
      constructor
      · rintro ⟨xs, h⟩; exact ⟨l, xs, rfl, h⟩
      · rintro ⟨l', xs, e, h⟩; cases e; exact ⟨xs, h⟩
    · rename_i h
      constructor
      · intro e; cases e
      · rintro ⟨l, xs, rfl, _⟩; exact absurd rfl (h l)
  length_law := by intro w l xs h; simp [listExt, h]
  ref_law := by
    intro w l xs i v h hv
    have : ¬ ((i : Int) < 0) := by omega
    simp [listExt, this, h, hv]
  set_law := by
    intro w l xs i v h hi
    have : ¬ ((i : Int) < 0) := by omega
    refine ⟨v, { w with rest := w.rest.set l (xs.set i v) }, by simp [listExt, this, h], rfl, ?_⟩
    intro l'
    have hl := (List.getElem?_eq_some_iff.1 h).1
    by_cases e : l' = l
    · subst e; simp [hl]
    · simp [e, List.getElem?_set_ne (Ne.symm e)]

/-- the macros of init.cora and `define-record` -/
def recordMacros : Macros where
  fn := fun | .named "define-record" => some defineRecord | x => initMacros.fn x
  protect := .gen 0
  ex := fun _ => []

theorem recordMacros_std : Std recordMacros where
  std := by
    intro s f h
    by_cases e : s = "define-record"
    · subst e; cases h
    · simp only [recordMacros]
      split
      · rename_i e'; cases e'; exact absurd rfl e
      · exact h
  core := by intro s hs; simp at hs; rcases hs with rfl | rfl | rfl | rfl | rfl | rfl | rfl | rfl | rfl | rfl | rfl | rfl <;> rfl
  gen := fun _ => rfl
  protect := rfl

/-- the example in lib/define-record.cora:2-6 -/
def person : Decl := ⟨.named "<person>", .named "make-person", [.named "name", .named "age"], some (.named "person?"),
  [.settable (.named "name") (.named "get-name") (.named "set-name!"),
   .settable (.named "age") (.named "get-age") (.named "set-age!")]⟩

theorem person_ok : person.ok 1 where
  names := by decide
  fields := by decide
  inits := by decide
  exist := by decide
  shadow := by decide
  old := by intro n _; simp [person]

example := C53_records_partial recordMacros_std (by intro s hs; simp at hs; rcases hs with rfl | rfl | rfl | rfl | rfl <;> rfl) rfl
  person_ok

/-- a world with the library loaded and one record -/
def someWorld : World (List (List Val)) where
  globals
    | .named "vector" => some (.native 0 1)
    | .named "vector?" => some (.native 1 1)
    | .named "vector-length" => some (.native 2 1)
    | .named "vector-ref" => some (.native 3 2)
    | .named "vector-set!" => some (.native 4 3)
    | _ => none
  rest := [[.sym (.named "<person>"), .nil, .int 3]]

theorem someWorld_loaded : listVectors.Loaded someWorld := ⟨rfl, rfl, rfl, rfl, rfl⟩

theorem someWorld_record : IsRecord listVectors person someWorld (listVectors.obj 0) [.nil, .int 3] := ⟨0, rfl, rfl, rfl⟩

/-- the age is still 3 after setting the name -/
example : ∃ w', Assigns listExt person (defs person 1) someWorld [(listVectors.obj 0, 0, .int 7)] w' ∧
    ∃ now, Apply listExt w' (.clo [.gen 5] (getBody 1 5) []) [listVectors.obj 0] now w' ∧
      lastAssigned listVectors.obj 0 1 [(listVectors.obj 0, 0, .int 7)] (.int 3) now := by
  have ha : Assigns listExt person (defs person 1) someWorld [(listVectors.obj 0, 0, .int 7)] _ :=
    .cons _ _ _ _ _ _ _ _ _ _ _ rfl rfl rfl (applyF_sound 20 rfl) (.nil _)
  exact ⟨_, ha, C53_last_assigned (implements_defs listVectors person_ok) (l := 0) (j := 1) rfl rfl rfl ha someWorld_loaded
    (by simp; exact ⟨_, someWorld_record⟩) someWorld_record rfl⟩
example := C53_forged (implements_defs listVectors person_ok) (d' := person) rfl rfl rfl
example := C53_field_named_vector recordMacros_std (by intro s hs; simp at hs; rcases hs with rfl | rfl | rfl | rfl | rfl <;> rfl) rfl 1

end Cora.Record
