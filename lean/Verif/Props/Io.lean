import Verif.Model.Io
/-
C67: reading and writing files.
-/
namespace Cora.Io

theorem fread_parts (n : Nat) (f : File) : (fread n f).1 ++ (fread n f).2.rest = f.rest := List.take_append_drop n f.rest

theorem fread_short {f : File} (h : (fread batchSize f).1.length < batchSize) :
    fread batchSize f = (f.rest, ⟨[], true⟩) := by
  have hl : f.rest.length < 64 := by
    simp only [fread, batchSize, List.length_take] at h
    omega
  have hd : decide (f.rest.length < batchSize) = true := decide_eq_true hl
  have hb : f.rest.length ≤ batchSize := Nat.le_of_lt hl
  simp only [fread]
  rw [List.take_of_length_le hb, List.drop_of_length_le hb, hd, Bool.or_true]

theorem fread_full {f : File} (he : f.eof = false) (h : ¬ (fread batchSize f).1.length < batchSize) :
    (fread batchSize f).2.eof = false := by
  have hl : ¬ f.rest.length < 64 := by
    simp only [fread, batchSize, List.length_take] at h
    omega
  have hd : decide (f.rest.length < batchSize) = false := decide_eq_false hl
  simp only [fread, he, hd, Bool.or_false]

theorem readLoop_spec (dest : Bytes) (f : File) (h : f.eof = false) :
    readLoop dest f = (dest ++ f.rest, ⟨[], true⟩) := by
  fun_induction readLoop dest f with
  | case1 dest f he => rw [h] at he; cases he
  | case2 dest f he r hr => simp only [r, fread_short hr]
  | case3 dest f he r hr ih =>
    rw [ih (fread_full h hr), List.append_assoc, fread_parts]

/-- `read-all` answers all the bytes that are left in the file, whatever they are and however many, and leaves the file
at its end -/
theorem C67_read_all (f : File) (h : f.eof = false) : readAll f = (f.rest, ⟨[], true⟩) := by
  rw [readAll, readLoop_spec [] f h]; rfl

/-- nothing is read at the end of the file -/
theorem C67_read_end (f : File) (h : f.eof = true) : readAll f = ([], f) := by
  rw [readAll, readLoop, if_pos h]

/-- `copy` writes all the bytes that are left behind what the other file has, if the other file takes what it is given -/
theorem C67_copy_partial (f : File) (out : Bytes) (h : f.eof = false) : copy f out [] = (⟨[], true⟩, out ++ f.rest) := by
  have : ∀ as, as = [] → copy f out as = (⟨[], true⟩, out ++ f.rest) := by
    intro as has
    fun_induction copy f out as with
    | case1 f out as he => rw [h] at he; cases he
    | case2 f out as he r w hr =>
      subst has
      simp only [w, r, fread_short hr, fwrite]
    | case3 f out as he r w hr ih =>
      subst has
      rw [ih (fread_full h hr) rfl]
      simp only [w, fwrite, List.append_assoc, r, fread_parts]
  exact this [] rfl

/-- if the other file takes less (its disk is full), the bytes are lost and `copy` ends as if all was well: it leaves
the same state of the file it reads -/
theorem C67_copy_short_wrong :
    copy ⟨[1, 2, 3], false⟩ [] [2] = (⟨[], true⟩, [1, 2]) ∧ (copy ⟨[1, 2, 3], false⟩ [] []).1 = ⟨[], true⟩ := by
  constructor <;> (rw [copy]; rfl)

theorem writeLoop_done (fuel : Nat) (data out : Bytes) (as : List Nat) (r : Bytes) (h : writeLoop fuel data out as = some r) :
    r = out ++ data := by
  induction fuel generalizing data out as with
  | zero => cases h
  | succ fuel ih =>
    simp only [writeLoop] at h
    split at h
    · rename_i hd
      cases h
      rw [List.eq_nil_of_length_eq_zero hd]; simp
    · have := ih _ _ _ h
      rw [this]
      cases as with
      | nil => simp [fwrite]
      | cons n as =>
        simp only [fwrite, List.append_assoc]
        congr 1
        by_cases hn : n ≤ data.length
        · rw [Nat.min_eq_left hn, List.take_append_drop]
        · rw [Nat.min_eq_right (by omega), List.take_of_length_le (by omega), List.drop_of_length_le (by omega)]
          simp

/-- when `write-bytes` is done it has written exactly the bytes, in whatever pieces the file took them -/
theorem C67_write_exact (fuel : Nat) (data out : Bytes) (as : List Nat) (r : Bytes)
    (h : writeLoop fuel data out as = some r) : r = out ++ data := writeLoop_done fuel data out as r h

/-- and it is done if the file takes at least one byte in every call -/
theorem C67_write_ends (data out : Bytes) (as : List Nat) (h : ∀ n ∈ as, 0 < n) :
    ∃ fuel, writeLoop fuel data out as = some (out ++ data) := by
  have key : ∀ k data out as, data.length < k → (∀ n ∈ as, 0 < n) → ∃ r, writeLoop (k + 1) data out as = some r := by
    intro k
    induction k with
    | zero => intro data _ _ hk; omega
    | succ k ih =>
      intro data out as hk ha
      rw [writeLoop]
      split
      · exact ⟨_, rfl⟩
      · refine ih _ _ _ ?_ ?_
        · cases as with
          | nil => simp [fwrite]; omega
          | cons n as =>
            have := ha n (by simp)
            simp only [fwrite, List.length_drop]
            omega
        · cases as with
          | nil => simp [fwrite]
          | cons n as => exact fun m hm => ha m (List.mem_cons_of_mem _ hm)
  obtain ⟨r, hr⟩ := key (data.length + 1) data out as (by omega) h
  exact ⟨_, by rw [hr, writeLoop_done _ _ _ _ _ hr]⟩

/-- if the file takes nothing, `write-bytes` goes on for as long as it does -/
theorem C67_write_stuck_wrong (n : Nat) (b : Byte) (data out : Bytes) :
    writeLoop n (b :: data) out (List.replicate n 0) = none := by
  induction n with
  | zero => rfl
  | succ n ih =>
    rw [writeLoop, if_neg (by simp), List.replicate_succ]
    simp only [fwrite, Nat.zero_min, List.drop_zero, List.take_zero, List.append_nil]
    exact ih

/-- 130 bytes, which takes three rounds -/
example : (readAll ⟨List.replicate 130 7, false⟩).1 = List.replicate 130 7 := by rw [C67_read_all _ rfl]

/-- pieces of one, five and the rest -/
example : writeLoop 4 [1, 2, 3, 4, 5, 6, 7, 8] [0] [1, 5] = some [0, 1, 2, 3, 4, 5, 6, 7, 8] := by decide

end Cora.Io
