import Verif.Model.Reader
/-
Model of /repo/main.c: running a script and reading forms from a stream.

What macro expansion and evaluation do to the state of the process is a parameter: `step` gives the state after a form was expanded and
evaluated, `none` if the process ends there. Running out of fuel in the reader is `Out.fuel`.
-/
open Spec
namespace Cora.Script
open Reader

/-- how a run ends -/
inductive Out (σ : Type) where
  | done (s : σ)     -- the stream ended (or could not be read further)
  | exit             -- `exit(-1)`, before anything is run
  | stopped          -- the process ended in the reader or in a form
  | fuel

/-- the bytes that one `fgets(buf, 256, f)` reads: up to 255, to the first newline -/
def chunk : Nat → Bytes → Bytes × Bytes
  | 0, t => ([], t)
  | _ + 1, [] => ([], [])
  | n + 1, c :: t => if c = 10 then ([c], t) else let r := chunk n t; (c :: r.1, r.2)

/-- C library `fgets`: `none` is NULL. The bytes read and a zero are put into the buffer, the rest of it is left as it is. -/
def fgets (size : Nat) (buf : Nat → Byte) (t : Bytes) : Option ((Nat → Byte) × Bytes) :=
  if t.isEmpty then none
  else
    let r := chunk (size - 1) t
    some (fun i => if i < r.1.length then r.1.getD i 0 else if i = r.1.length then 0 else buf i, r.2)

theorem chunk_length : ∀ (n : Nat) (t : Bytes), (chunk n t).1.length + (chunk n t).2.length = t.length
  | 0, t => by simp [chunk]
  | _ + 1, [] => by simp [chunk]
  | n + 1, c :: t => by
    have := chunk_length n t
    simp only [chunk]
    split <;> simp <;> omega

theorem chunk_pos {n : Nat} {t : Bytes} (hn : 0 < n) (ht : t ≠ []) : 0 < (chunk n t).1.length := by
  match n, t, hn, ht with
  | n + 1, c :: t, _, _ =>
    simp only [chunk]
    split <;> simp

/-- main.c:60-70: lines are read until `buf[254]` is no newline. `none` is `exit(-1)`. `buf` is what is in the buffer, which is not
initialised. -/
def skipLine (buf : Nat → Byte) (t : Bytes) : Option Bytes :=
  match h : fgets 256 buf t with
  | none => none
  | some (buf', rest) => if buf' 254 ≠ 10 then some rest else skipLine buf' rest
termination_by t.length
decreasing_by
  simp only [fgets] at h
  split at h
  · cases h
  · rename_i ht
    cases h
    have h1 := chunk_length (256 - 1) t
    have h2 := chunk_pos (n := 256 - 1) (t := t) (by omega) (by intro h; simp [h] at ht)
    omega

/-- main.c:72-78: the arguments, from the script's name on, consed in front of each other and then reversed -/
def commandLineArgs (argv : List Bytes) : List Bytes := (argv.tail.foldl (fun args a => a :: args) []).reverse

/-- main.c:6-45 `repl`: read a form, expand and evaluate it; stop when no form can be read -/
def repl {σ : Type} (step : σ → Sexp → Option σ) (fuel : Nat) : Nat → Bytes → σ → Out σ
  | 0, _, _ => .fuel
  | n + 1, t, s =>
    match sexpRead fuel t with
    | .ok _ _ true => .done s
    | .ok v r false =>
      match step s v with
      | some s => repl step fuel n r s
      | none => .stopped
    | .fuel => .fuel
    | _ => .stopped

/-- main.c:47-81 `shebang`: run the script `t`. `setArgs` sets `*command-line-args*`. -/
def script {σ : Type} (step : σ → Sexp → Option σ) (setArgs : σ → List Bytes → σ) (buf : Nat → Byte) (argv : List Bytes) (fuel n : Nat)
    (t : Bytes) (s : σ) : Out σ :=
  match skipLine buf t with
  | none => .exit
  | some rest => repl step fuel n rest (setArgs s (commandLineArgs argv))

end Cora.Script
