import Verif.Model.Register
import Verif.Lemmas.Str
/-
C90: the functions of a C library are the variables that its package exports.
-/
open Spec Spec.Reg
namespace Cora.Register

/-- what is seen of a value: a function and the number of arguments it asks for -/
def Obj.value : Obj → Value
  | .native _ fn required => .fn fn required
  | .syms l => .names l
  | .other n => .other n

/-- what is seen of the variables -/
def Env.vars (g : Env) : Vars := fun x => (g x).map Obj.value

/-- the array of entries for a list of functions: a null entry ends it -/
def table (lib : List Fn) : List Entry := lib.map (fun f => ⟨f.name, some f.code, f.arity⟩) ++ [⟨[], none, 0⟩]

/-- C strings hold no NUL -/
def NoNul (s : Spec.Reg.Bytes) : Prop := 0 ∉ s

instance (s : Spec.Reg.Bytes) : Decidable (NoNul s) := inferInstanceAs (Decidable (¬ _))

theorem cname_id {s : Bytes} (h : NoNul s) : cname s = s := by
  unfold cname
  induction s with
  | nil => rfl
  | cons a t ih =>
    simp only [NoNul, List.mem_cons, not_or] at h
    rw [List.takeWhile_cons_of_pos (by simpa using fun e => h.1 e.symm), ih h.2]

theorem varSym_spec (junk : Nat → Byte) {pkg name : Bytes} (hp : NoNul pkg) (hn : NoNul name) :
    varSym junk pkg name = some (qualify pkg name) := by
  obtain ⟨b0, h0, i0, s0⟩ := fromBlk_spec junk pkg
  obtain ⟨b1, h1, i1, s1⟩ := strAppend_spec junk i0 35
  obtain ⟨b2, h2, _, s2⟩ := strCat_spec junk i1 name
  have e : b2.toStr = qualify pkg name := by
    rw [s2, s1, s0]; rfl
  have hq : NoNul (qualify pkg name) := by
    unfold NoNul qualify at *
    have : (0 : UInt8) ∉ ascii "#" := by decide
    simp only [List.mem_append, not_or]
    exact ⟨⟨hp, this⟩, hn⟩
  simp only [varSym, h0, h1, h2, Option.bind_eq_bind, Option.bind_some, e, cname_id hq]

theorem exportSym_spec (junk : Nat → Byte) {pkg : Bytes} (hp : NoNul pkg) :
    exportSym junk pkg = some (qualify pkg (ascii "*ns-export*")) := by
  obtain ⟨b0, h0, i0, s0⟩ := fromBlk_spec junk pkg
  obtain ⟨b2, h2, _, s2⟩ := strCat_spec junk i0 (ascii "#*ns-export*")
  have e : b2.toStr = qualify pkg (ascii "*ns-export*") := by
    rw [s2, s0, qualify, List.append_assoc]
    congr 1
  have hq : NoNul (qualify pkg (ascii "*ns-export*")) := by
    unfold NoNul qualify at *
    have h1 : (0 : UInt8) ∉ ascii "#" := by decide
    have h2 : (0 : UInt8) ∉ ascii "*ns-export*" := by decide
    simp only [List.mem_append, not_or]
    exact ⟨⟨hp, h1⟩, h2⟩
  simp only [exportSym, h0, h2, Option.bind_eq_bind, Option.bind_some, e, cname_id hq]

/-- the name of the variable of a function -/
def place (pkg x : Spec.Reg.Bytes) : Spec.Reg.Bytes := if pkg = [] then x else qualify pkg x

theorem place_inj {pkg x y : Bytes} : place pkg x = place pkg y ↔ x = y := by
  unfold place qualify
  split <;> simp

def sets (pkg : Bytes) (lib : List Fn) (g : Env) : Env :=
  lib.foldl (fun g f => primSet g (place pkg f.name) (.native (f.arity + 1) f.code f.arity)) g

theorem registerLoop_spec (junk : Nat → Byte) {pkg : Bytes} (hp : NoNul pkg) :
    ∀ (lib : List Fn) (g : Env) (ex : List Bytes), (∀ f ∈ lib, NoNul f.name) →
      registerLoop junk pkg (table lib) g ex = some (sets pkg lib g, (lib.map Fn.name).reverse ++ ex)
  | [], g, ex, _ => by simp [table, registerLoop, sets]
  | f :: r, g, ex, h => by
    have hf := h f (by simp)
    have ih := registerLoop_spec junk hp r (primSet g (place pkg f.name) (.native (f.arity + 1) f.code f.arity)) (f.name :: ex)
      fun x hx => h x (by simp [hx])
    have es : entrySym junk pkg ⟨f.name, some f.code, f.arity⟩ = some (place pkg f.name) := by
      unfold place entrySym
      simp only [cname_id hf]
      cases pkg with
      | nil => rfl
      | cons a t => simp only [List.length_cons, Nat.succ_pos, if_true, gt_iff_lt]; rw [varSym_spec junk hp hf]; simp
    simp only [table, List.map_cons, List.cons_append, registerLoop, cname_id hf, makeNative, Nat.succ_pos, gt_iff_lt, if_true] at ih ⊢
    rw [es]
    simp only [Option.bind_eq_bind, Option.bind_some, ih, sets, List.foldl_cons, List.reverse_cons, List.append_assoc,
      List.singleton_append, Nat.zero_lt_succ, if_true]

/-- the last one counts -/
theorem sets_spec (pkg : Bytes) (lib : List Fn) (g : Env) :
    (∀ x, sets pkg lib g (place pkg x) =
      match lastNamed lib x with
      | some f => some (.native (f.arity + 1) f.code f.arity)
      | none => g (place pkg x)) ∧
    ∀ y, (∀ f ∈ lib, y ≠ place pkg f.name) → sets pkg lib g y = g y := by
  induction lib generalizing g with
  | nil => exact ⟨fun x => rfl, fun _ _ => rfl⟩
  | cons f r ih =>
    obtain ⟨i1, i2⟩ := ih (primSet g (place pkg f.name) (.native (f.arity + 1) f.code f.arity))
    constructor
    · intro x
      have : sets pkg (f :: r) g = sets pkg r (primSet g (place pkg f.name) (.native (f.arity + 1) f.code f.arity)) := rfl
      rw [this, i1]
      unfold lastNamed
      rw [List.reverse_cons, List.find?_append]
      cases hl : r.reverse.find? (fun f => decide (f.name = x)) with
      | some f' => simp
      | none =>
        by_cases hx : f.name = x
        · subst hx; simp [primSet]
        · have : ¬ place pkg x = place pkg f.name := fun e => hx (place_inj.1 e).symm
          simp [primSet, hx, this]
    · intro y hy
      have : sets pkg (f :: r) g = sets pkg r (primSet g (place pkg f.name) (.native (f.arity + 1) f.code f.arity)) := rfl
      rw [this, i2 y fun f hf => hy f (by simp [hf])]
      simp [primSet, hy f (by simp)]

theorem lastNamed_mem {lib : List Fn} {x : Bytes} {f : Fn} (h : lastNamed lib x = some f) : f ∈ lib ∧ f.name = x := by
  unfold lastNamed at h
  exact ⟨by simpa using List.mem_of_find?_eq_some h, by simpa using List.find?_some h⟩

theorem lastNamed_none {lib : List Fn} {x : Bytes} : lastNamed lib x = none ↔ x ∉ lib.map Fn.name := by
  unfold lastNamed
  rw [List.find?_eq_none]
  simp

theorem register_eq (junk : Nat → Byte) {pkg : Bytes} (hp : NoNul pkg) (hne : pkg ≠ []) (lib : List Fn) (hl : ∀ f ∈ lib, NoNul f.name)
    (g : Env) : registerAPI junk (table lib) pkg g =
      some (primSet (sets pkg lib g) (qualify pkg (ascii "*ns-export*")) (.syms (lib.map Fn.name).reverse)) := by
  have : pkg.length > 0 := List.length_pos_iff.mpr hne
  simp only [registerAPI, registerLoop_spec junk hp lib g [] hl, Option.bind_eq_bind, Option.bind_some, this, if_true,
    exportSym_spec junk hp, List.append_nil]

/-- what registering a library has done to the variables -/
structure Registered (pkg : Spec.Reg.Bytes) (lib : List Fn) (before after : Vars) : Prop where
  /-- the package exports the names of the functions, and nothing else -/
  exports : ∀ x, x ∈ exported after pkg ↔ x ∈ lib.map Fn.name
  /-- in a file that imports the package the name of a function refers to it, with the number of arguments it was registered with -/
  meaning : ∀ x f, lastNamed lib x = some f → x ≠ ascii "*ns-export*" → after (refers after pkg x) = some (.fn f.code f.arity)
  /-- the other names still refer to what they did -/
  others : ∀ x, x ∉ lib.map Fn.name → refers after pkg x = x
  /-- every variable that is not one of the package is as before -/
  frame : ∀ y, y ≠ qualify pkg (ascii "*ns-export*") → (∀ f ∈ lib, y ≠ qualify pkg f.name) → after y = before y

theorem registered {pkg : Bytes} (hne : pkg ≠ []) (lib : List Fn) (g : Env) (l : List Bytes)
    (hl : ∀ x, x ∈ l ↔ x ∈ lib.map Fn.name) :
    Registered pkg lib g.vars (Env.vars (primSet (sets pkg lib g) (qualify pkg (ascii "*ns-export*")) (.syms l))) := by
  have hex : exported (Env.vars (primSet (sets pkg lib g) (qualify pkg (ascii "*ns-export*")) (.syms l))) pkg = l := by
    simp [exported, Env.vars, primSet, Obj.value]
  have hpl : ∀ x, place pkg x = qualify pkg x := fun x => by simp [place, hne]
  obtain ⟨s1, s2⟩ := sets_spec pkg lib g
  refine ⟨fun x => by rw [hex, hl], ?_, ?_, ?_⟩
  · intro x f hf hx
    have hm := lastNamed_mem hf
    have : x ∈ l := (hl x).2 (List.mem_map.mpr ⟨f, hm.1, hm.2⟩)
    rw [refers, hex, if_pos this]
    have hq : ¬ qualify pkg x = qualify pkg (ascii "*ns-export*") := fun e => hx (List.append_cancel_left e)
    have := s1 x
    rw [hpl, hf] at this
    simp [Env.vars, primSet, hq, this, Obj.value]
  · intro x hx
    rw [refers, hex, if_neg fun h => hx ((hl x).1 h)]
  · intro y h1 h2
    simp only [Env.vars, primSet, h1, if_false]
    rw [s2 y fun f hf => by rw [hpl]; exact h2 f hf]

/-- C90 (a). A library is registered as a package: whatever `malloc` finds in memory, nothing is read or written outside a buffer; after it
the package exports exactly the names of the library, each name refers to the function it was registered with (to the last of them if
there are several), which asks for the number of arguments it was registered with, and everything else is as before. -/
theorem C90_library (junk : Nat → Byte) (pkg : Spec.Reg.Bytes) (hp : NoNul pkg) (hne : pkg ≠ []) (lib : List Fn)
    (hl : ∀ f ∈ lib, NoNul f.name) (g : Env) :
    ∃ g', registerAPI junk (table lib) pkg g = some g' ∧ Registered pkg lib g.vars g'.vars :=
  ⟨_, register_eq junk hp hne lib hl g, registered hne lib g _ (by simp)⟩

/-- C90 (b). Registered without a package the functions are the values of the plain names, and nothing else changes. -/
theorem C90_plain (junk : Nat → Byte) (lib : List Fn) (hl : ∀ f ∈ lib, NoNul f.name) (g : Env) :
    ∃ g', registerAPI junk (table lib) [] g = some g' ∧ ∀ x, g'.vars x =
      match lastNamed lib x with
      | some f => some (.fn f.code f.arity)
      | none => g.vars x := by
  refine ⟨sets [] lib g, ?_, fun x => ?_⟩
  · simp [registerAPI, registerLoop_spec junk (pkg := []) (by simp [NoNul]) lib g [] hl]
  · have := (sets_spec [] lib g).1 x
    simp only [place, if_true] at this
    rw [Env.vars, this]
    cases lastNamed lib x <;> rfl

/-- every function has room for its arguments: the frame of a registered function holds itself and as many registers as it asks for -/
def Roomy (g : Env) : Prop := ∀ x n fn r, g x = some (.native n fn r) → n = r + 1

theorem sets_roomy {pkg : Bytes} (lib : List Fn) : ∀ {g : Env}, Roomy g → Roomy (sets pkg lib g) := by
  induction lib with
  | nil => exact fun h => h
  | cons f r ih =>
    intro g h
    refine ih fun x n fn q hx => ?_
    unfold primSet at hx
    dsimp only at hx
    split at hx
    · cases hx; rfl
    · exact h x n fn q hx

/-- C90 (c). No function is registered with a frame too small for its arguments. -/
theorem C90_frames (junk : Nat → Byte) (pkg : Spec.Reg.Bytes) (hp : NoNul pkg) (lib : List Fn)
    (hl : ∀ f ∈ lib, NoNul f.name) (g g' : Env) (h : Roomy g) (hg : registerAPI junk (table lib) pkg g = some g') : Roomy g' := by
  by_cases hne : pkg = []
  · subst hne
    simp [registerAPI, registerLoop_spec junk (pkg := []) (by simp [NoNul]) lib g [] hl] at hg
    subst hg
    exact sets_roomy lib h
  · rw [register_eq junk hp hne lib hl g] at hg
    cases hg
    intro x n fn q hx
    unfold primSet at hx
    split at hx
    · cases hx
    · exact sets_roomy lib h x n fn q hx

/-! ### one function after the other -/

theorem coraRegisterAPI_eq (junk : Nat → Byte) {pkg : Bytes} (hp : NoNul pkg) (hne : pkg ≠ []) {f : Fn} (hf : NoNul f.name)
    (hx : f.name ≠ ascii "*ns-export*") (g : Env) (l : List Bytes)
    (hg : g (qualify pkg (ascii "*ns-export*")) = none ∧ l = [] ∨ g (qualify pkg (ascii "*ns-export*")) = some (.syms l)) :
    coraRegisterAPI junk (some pkg) f.name f.code f.arity g =
      some (primSet (sets pkg [f] g) (qualify pkg (ascii "*ns-export*")) (.syms (f.name :: l))) := by
  have hq : ¬ qualify pkg (ascii "*ns-export*") = qualify pkg f.name := fun e => hx (List.append_cancel_left e).symm
  have hpl : place pkg f.name = qualify pkg f.name := by simp [place, hne]
  simp only [coraRegisterAPI, cname_id hp, cname_id hf, varSym_spec junk hp hf, exportSym_spec junk hp, makeNative,
    Option.bind_eq_bind, Option.bind_some, Nat.zero_lt_succ, gt_iff_lt, if_true, sets, List.foldl_cons, List.foldl_nil, hpl]
  have e : primSet g (qualify pkg f.name) (Obj.native (f.arity + 1) f.code f.arity) (qualify pkg (ascii "*ns-export*")) =
      g (qualify pkg (ascii "*ns-export*")) := by simp [primSet, hq]
  rcases hg with ⟨h1, h2⟩ | h1
  · subst h2; rw [e, h1]
  · rw [e, h1]

theorem primSet_comm {g : Env} {a b : Bytes} {u v : Obj} (h : a ≠ b) : primSet (primSet g a u) b v = primSet (primSet g b v) a u := by
  funext x
  simp only [primSet]
  by_cases h1 : x = a
  · subst h1; simp [h]
  · simp [h1]

theorem primSet_twice (g : Env) (a : Bytes) (u v : Obj) : primSet (primSet g a u) a v = primSet g a v := by
  funext x
  simp only [primSet]
  by_cases h1 : x = a <;> simp [h1]

theorem sets_export {pkg : Bytes} (hne : pkg ≠ []) {v : Obj} : ∀ (lib : List Fn) (g : Env), (∀ f ∈ lib, f.name ≠ ascii "*ns-export*") →
    sets pkg lib (primSet g (qualify pkg (ascii "*ns-export*")) v) = primSet (sets pkg lib g) (qualify pkg (ascii "*ns-export*")) v
  | [], _, _ => rfl
  | f :: r, g, h => by
    have hq : qualify pkg (ascii "*ns-export*") ≠ qualify pkg f.name := fun e => h f (by simp) (List.append_cancel_left e).symm
    have hpl : place pkg f.name = qualify pkg f.name := by simp [place, hne]
    show sets pkg r (primSet (primSet g (qualify pkg (ascii "*ns-export*")) v) (place pkg f.name) _) = _
    rw [hpl, primSet_comm hq, sets_export hne r _ fun f hf => h f (by simp [hf])]
    simp only [sets, List.foldl_cons, hpl]

theorem coraRegisterAll_eq (junk : Nat → Byte) {pkg : Bytes} (hp : NoNul pkg) (hne : pkg ≠ []) :
    ∀ (lib : List Fn), lib ≠ [] → (∀ f ∈ lib, NoNul f.name) → (∀ f ∈ lib, f.name ≠ ascii "*ns-export*") → ∀ (g : Env) (l : List Bytes),
    (g (qualify pkg (ascii "*ns-export*")) = none ∧ l = [] ∨ g (qualify pkg (ascii "*ns-export*")) = some (.syms l)) →
    coraRegisterAll junk (some pkg) lib g =
      some (primSet (sets pkg lib g) (qualify pkg (ascii "*ns-export*")) (.syms ((lib.map Fn.name).reverse ++ l)))
  | [], h, _, _, _, _, _ => absurd rfl h
  | [f], _, hl, hx, g, l, hg => by
    simp only [coraRegisterAll, coraRegisterAPI_eq junk hp hne (hl f (by simp)) (hx f (by simp)) g l hg, Option.bind_eq_bind,
      Option.bind_some]
    rfl
  | f :: f' :: r, _, hl, hx, g, l, hg => by
    have ih := coraRegisterAll_eq junk hp hne (f' :: r) (by simp) (fun f hf => hl f (by simp [hf])) (fun f hf => hx f (by simp [hf]))
      (primSet (sets pkg [f] g) (qualify pkg (ascii "*ns-export*")) (.syms (f.name :: l))) (f.name :: l) (.inr (by simp [primSet]))
    rw [coraRegisterAll, coraRegisterAPI_eq junk hp hne (hl f (by simp)) (hx f (by simp)) g l hg]
    show coraRegisterAll junk (some pkg) (f' :: r) _ = _
    rw [ih, sets_export hne (f' :: r) _ fun f hf => hx f (by simp [hf]), primSet_twice]
    simp [sets]

/-- C90 (d). Registering the functions one after the other leaves the very same variables as registering them in one table, if the package
exported nothing before. -/
theorem C90_one_by_one (junk junk' : Nat → Byte) (pkg : Spec.Reg.Bytes) (hp : NoNul pkg) (hne : pkg ≠ []) (lib : List Fn) (h0 : lib ≠ [])
    (hl : ∀ f ∈ lib, NoNul f.name ∧ f.name ≠ ascii "*ns-export*") (g : Env) (hg : g (qualify pkg (ascii "*ns-export*")) = none) :
    ∃ g', coraRegisterAll junk (some pkg) lib g = some g' ∧ registerAPI junk' (table lib) pkg g = some g' := by
  refine ⟨_, coraRegisterAll_eq junk hp hne lib h0 (fun f hf => (hl f hf).1) (fun f hf => (hl f hf).2) g [] (.inl ⟨hg, rfl⟩), ?_⟩
  rw [register_eq junk' hp hne lib (fun f hf => (hl f hf).1) g, List.append_nil]

/-- C90 (e). A library that is loaded a second time, in either way, has registered what it registers when it is loaded once: what its
names refer to and what it exports (an export may be listed twice). -/
theorem C90_again (junk : Nat → Byte) (pkg : Spec.Reg.Bytes) (hp : NoNul pkg) (hne : pkg ≠ []) (lib : List Fn) (h0 : lib ≠ [])
    (hl : ∀ f ∈ lib, NoNul f.name ∧ f.name ≠ ascii "*ns-export*") (g : Env) (hg : g (qualify pkg (ascii "*ns-export*")) = none) :
    (∃ g1 g2, coraRegisterAll junk (some pkg) lib g = some g1 ∧ coraRegisterAll junk (some pkg) lib g1 = some g2 ∧
      Registered pkg lib g.vars g2.vars) ∧
    ∃ g1, registerAPI junk (table lib) pkg g = some g1 ∧ registerAPI junk (table lib) pkg g1 = some g1 := by
  have hl1 : ∀ f ∈ lib, NoNul f.name := fun f hf => (hl f hf).1
  have hl2 : ∀ f ∈ lib, f.name ≠ ascii "*ns-export*" := fun f hf => (hl f hf).2
  have idem : sets pkg lib (sets pkg lib g) = sets pkg lib g := by
    funext y
    by_cases hy : ∀ f ∈ lib, y ≠ place pkg f.name
    · rw [(sets_spec pkg lib (sets pkg lib g)).2 y hy]
    · have ⟨f, hf, e⟩ : ∃ f ∈ lib, y = place pkg f.name := by
        simpa using hy
      rw [e, (sets_spec pkg lib (sets pkg lib g)).1, (sets_spec pkg lib g).1]
      cases lastNamed lib f.name <;> rfl
  constructor
  · have e1 := coraRegisterAll_eq junk hp hne lib h0 hl1 hl2 g [] (.inl ⟨hg, rfl⟩)
    have e2 := coraRegisterAll_eq junk hp hne lib h0 hl1 hl2 _ _ (.inr (by simp only [primSet, if_true]) :
      _ ∨ primSet (sets pkg lib g) (qualify pkg (ascii "*ns-export*")) (.syms ((lib.map Fn.name).reverse ++ []))
        (qualify pkg (ascii "*ns-export*")) = some (.syms ((lib.map Fn.name).reverse ++ [])))
    refine ⟨_, _, e1, e2, ?_⟩
    rw [sets_export hne lib _ hl2, primSet_twice, idem]
    exact registered hne lib g _ (by simp)
  · refine ⟨_, register_eq junk hp hne lib hl1 g, ?_⟩
    rw [register_eq junk hp hne lib hl1, sets_export hne lib _ hl2, primSet_twice, idem]

/-- C90, where the two ways disagree: with an empty package name a table binds the plain names (C90_plain), while `coraRegisterAPI` leaves
`x` as it was and sets `#x`. -/
theorem C90_empty_package_wrong (junk : Nat → Byte) (f : Fn) (hf : NoNul f.name) (hx : f.name ≠ ascii "*ns-export*")
    (hs : 35 ∉ f.name) :
    ∃ g', coraRegisterAPI junk (some []) f.name f.code f.arity (fun _ => none) = some g' ∧
      g'.vars (ascii "#" ++ f.name) = some (.fn f.code f.arity) ∧ g'.vars f.name = none := by
  have hq : ¬ qualify [] (ascii "*ns-export*") = qualify [] f.name := fun e => hx (List.append_cancel_left e).symm
  have h0 : NoNul [] := by simp [NoNul]
  have e : primSet (fun _ => none) (qualify [] f.name) (Obj.native (f.arity + 1) f.code f.arity) (qualify [] (ascii "*ns-export*")) =
      none := by simp [primSet, hq]
  have hn : ∀ x, ¬ f.name = qualify [] x := fun x he => hs (by rw [he]; simp [qualify, ascii])
  refine ⟨primSet (primSet (fun _ => none) (qualify [] f.name) (.native (f.arity + 1) f.code f.arity))
    (qualify [] (ascii "*ns-export*")) (.syms [f.name]), ?_, ?_, ?_⟩
  · simp only [coraRegisterAPI, cname_id h0, cname_id hf, varSym_spec junk h0 hf, exportSym_spec junk h0, makeNative,
      Option.bind_eq_bind, Option.bind_some, Nat.zero_lt_succ, gt_iff_lt, if_true]
    rw [e]
  · have : ascii "#" ++ f.name = qualify [] f.name := rfl
    rw [this]
    have hq' : ¬ qualify [] f.name = qualify [] (ascii "*ns-export*") := fun h => hq h.symm
    simp [Env.vars, primSet, hq', Obj.value]
  · simp [Env.vars, primSet, hn]

/-- non-vacuity: two functions and a name that is registered twice -/
example : ∃ g', registerAPI (fun _ => 7) (table [⟨ascii "get", 1, 1⟩, ⟨ascii "put", 2, 2⟩, ⟨ascii "get", 3, 0⟩]) (ascii "lib/h")
      (fun x => if x = ascii "get" then some (.other 5) else none) = some g' ∧
    refers g'.vars (ascii "lib/h") (ascii "get") = ascii "lib/h#get" ∧
    g'.vars (ascii "lib/h#get") = some (.fn 3 0) ∧ g'.vars (ascii "get") = some (.other 5) := by
  refine ⟨_, register_eq _ (by decide) (by decide) _ (by decide) _, ?_, ?_, ?_⟩ <;> decide +kernel

end Cora.Register
