import Verif.Model.Tls
import Verif.Props.ListLib
/-
C73: thread-local variables.
-/
open Spec Spec.Local
namespace Cora.Tls

theorem toDigits_inj : ∀ (m n : Nat), Nat.toDigits 16 m = Nat.toDigits 16 n → m = n := by
  intro m
  induction m using Nat.strongRecOn with
  | ind m ih =>
    intro n h
    have hd : ∀ a b : Fin 16, Nat.digitChar a.1 = Nat.digitChar b.1 → a = b := by decide
    have hd' : ∀ a b : Nat, a < 16 → b < 16 → Nat.digitChar a = Nat.digitChar b → a = b := fun a b ha hb he =>
      congrArg Fin.val (hd ⟨a, ha⟩ ⟨b, hb⟩ he)
    have key : ∀ a : Nat, Nat.toDigits 16 a = if a < 16 then [a.digitChar] else
        Nat.toDigits 16 (a / 16) ++ [(a % 16).digitChar] := fun a => Nat.toDigits_eq_if (by decide)
    have hne : ∀ a : Nat, Nat.toDigits 16 a ≠ [] := fun a => Nat.toDigits_ne_nil
    rw [key m, key n] at h
    split at h <;> split at h
    · exact hd' _ _ ‹_› ‹_› (by simpa using h)
    · have := congrArg List.length h
      have h1 := List.length_pos_iff.mpr (hne (n / 16))
      simp at this
    · have := congrArg List.length h
      simp at this
    · have h1 := List.append_inj_left' h rfl
      have h2 := List.append_inj_right' h rfl
      have h3 := ih (m / 16) (by omega) _ h1
      have h4 := hd' _ _ (Nat.mod_lt m (by decide)) (Nat.mod_lt n (by decide)) (by simpa using h2)
      omega

theorem symbolName_some {m : Nat} (h : m < 2 ^ 64) : ∃ s, symbolName m = some s := by
  have : (Nat.toDigits 16 m).length ≤ 16 := (Nat.length_toDigits_le_iff (by decide) (by decide)).mpr h
  refine ⟨_, if_pos ?_⟩
  have h2 : "0x".length = 2 := by decide
  have h3 : (String.ofList (Nat.toDigits 16 m)).length = (Nat.toDigits 16 m).length := String.length_ofList
  rw [String.length_append, h2, h3]
  omega

theorem symbolName_inj {m n : Nat} {s : String} (hm : symbolName m = some s) (hn : symbolName n = some s) : m = n := by
  simp only [symbolName] at hm hn
  split at hm <;> split at hn <;> simp only [Option.some.injEq, reduceCtorEq] at hm hn
  have h := hm.trans hn.symm
  have h2 := congrArg String.toList h
  simp at h2
  exact toDigits_inj _ _ h2

variable {α : Type} [DecidableEq α]

/-- the bindings of a machine, latest first -/
def pairs (kvs : List (V α × V α)) : V α := V.ofList (kvs.map fun e => .cons e.1 e.2)

theorem filter_pairs (key : V α) (kvs : List (V α × V α)) :
    ListLib.filter (σ := Unit) (fun x s => (car x).map fun c => (!decide (key = c), s)) (pairs kvs) () =
      some (pairs (kvs.filter fun e => !decide (key = e.1)), ()) := by
  rw [pairs, ListLib.C41_filter]
  have : filterInOrder (fun x (s : Unit) => (car x).map fun c => (!decide (key = c), s)) (kvs.map fun e => V.cons e.1 e.2) () =
      some ((kvs.filter fun e => !decide (key = e.1)).map fun e => V.cons e.1 e.2, ()) := by
    induction kvs with
    | nil => rfl
    | cons e kvs ih =>
      have hc : car (V.cons e.1 e.2) = some e.1 := rfl
      simp only [List.map_cons, filterInOrder, hc, Option.map_some, ih, List.filter_cons]
      cases decide (key = e.1) <;> simp
  rw [this]
  rfl

/-- the list of a machine after a history -/
def Good (h : List (Event α)) (g : Globals α) : Prop :=
  ∀ m s, started m h → symbolName m = some s → ∃ kvs, g s = some (pairs kvs) ∧
    ∀ key, (kvs.find? fun e => decide (key = e.1)).map (·.2) = lastSet m key h

/-- the machines of a history are at addresses of 64 bits -/
def Addressed (h : List (Event α)) : Prop := ∀ m, started m h → m < 2 ^ 64

theorem find_filter (key k : V α) (kvs : List (V α × V α)) (hk : key ≠ k) :
    (kvs.filter fun e => !decide (k = e.1)).find? (fun e => decide (key = e.1)) = kvs.find? fun e => decide (key = e.1) := by
  induction kvs with
  | nil => rfl
  | cons e kvs ih =>
    simp only [List.filter_cons]
    by_cases he : k = e.1
    · subst he
      simp [hk, ih]
    · simp only [he, decide_false, Bool.not_false, if_true, List.find?_cons, ih]

theorem run_good (h : List (Event α)) (hp : proper h) (ha : Addressed h) : ∃ g, run h = some g ∧ Good h g := by
  induction h with
  | nil => exact ⟨_, rfl, fun m s hs => absurd hs List.not_mem_nil⟩
  | cons e h ih =>
    cases e with
    | start m =>
      obtain ⟨g, h1, h2⟩ := ih hp fun m' hm' => ha m' (List.mem_cons_of_mem _ hm')
      obtain ⟨s, hs⟩ := symbolName_some (ha m List.mem_cons_self)
      refine ⟨_, by simp [run, h1, start, hs]; rfl, fun m' s' hm' hs' => ?_⟩
      by_cases hmm : m = m'
      · subst hmm
        rw [hs] at hs'
        cases hs'
        exact ⟨[], by simp [pairs, V.ofList], fun key => by simp [lastSet]⟩
      · have hne : s' ≠ s := by rintro rfl; exact hmm (symbolName_inj hs hs')
        have hst : started m' h := by
          rcases List.mem_cons.mp hm' with he | he
          · cases he; exact absurd rfl hmm
          · exact he
        obtain ⟨kvs, h3, h4⟩ := h2 m' s' hst hs'
        exact ⟨kvs, by simp [hne, h3], fun key => by simp [lastSet, hmm, h4]⟩
    | set m key val =>
      obtain ⟨g, h1, h2⟩ := ih hp.2 fun m' hm' => ha m' (List.mem_cons_of_mem _ hm')
      obtain ⟨s, hs⟩ := symbolName_some (ha m (List.mem_cons_of_mem _ hp.1))
      obtain ⟨kvs, h3, h4⟩ := h2 m s hp.1 hs
      refine ⟨_, by simp [run, h1, threadLocalSet, hs, h3, filter_pairs]; rfl, fun m' s' hm' hs' => ?_⟩
      have hst : started m' h := by
        rcases List.mem_cons.mp hm' with he | he
        · cases he
        · exact he
      by_cases hmm : m = m'
      · subst hmm
        rw [hs] at hs'
        cases hs'
        refine ⟨(key, val) :: kvs.filter fun e => !decide (key = e.1), by simp [pairs, V.ofList], fun key' => ?_⟩
        simp only [lastSet, List.find?_cons]
        by_cases hk : key' = key
        · subst hk
          simp
        · have hk' : key ≠ key' := Ne.symm hk
          simp only [hk, decide_false, hk', and_false, if_false, find_filter _ _ _ hk, h4]
      · have hne : s' ≠ s := by rintro rfl; exact hmm (symbolName_inj hs hs')
        obtain ⟨kvs, h3, h4⟩ := h2 m' s' hst hs'
        exact ⟨kvs, by simp [hne, h3], fun key' => by simp [lastSet, hmm, h4]⟩

/-- after any history, reading a variable gives what this machine last set it to since it started; a variable that it did
not set is an error; what other machines did does not matter -/
theorem C73_thread_local (h : List (Event α)) (hp : proper h) (ha : Addressed h) (m : Nat) (hm : started m h) (key : V α) :
    ∃ g, run h = some g ∧ threadLocalGet m key g = some (lastSet m key h) := by
  obtain ⟨g, h1, h2⟩ := run_good h hp ha
  obtain ⟨s, hs⟩ := symbolName_some (ha m hm)
  obtain ⟨kvs, h3, h4⟩ := h2 m s hm hs
  refine ⟨g, h1, ?_⟩
  rw [← h4 key]
  have h5 := ListLib.C41_assq key kvs
  simp only [threadLocalGet, hs, h3, Option.bind_eq_bind, Option.bind_some, pairs, h5]
  cases kvs.find? fun e => decide (key = e.1) with
  | none => simp
  | some e => simp [cdr]

/-- two machines that use the same name, one that sets it twice, and one that starts again where another was -/
example : let a : V Nat := .atom 1
    let h : List (Event Nat) := [.start 48, .set 32 a (.atom 7), .set 48 a (.atom 6), .set 32 a (.atom 5), .start 48, .start 32]
    proper h ∧ Addressed h ∧ started 32 h ∧ lastSet 32 a h = some (.atom 7) ∧ lastSet 48 a h = none := by
  refine ⟨by simp [proper, started], ?_, by simp [started], by decide, by decide⟩
  intro m hm
  simp [started] at hm
  omega

end Cora.Tls
