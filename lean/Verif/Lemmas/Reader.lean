import Verif.Model.Reader
/-
Lemmas about the reader: each token, then texts by induction over the grammar.
-/
namespace Cora.Reader
open Spec

theorem isspace_iff (c : Byte) : isspace c = true ↔ IsBlank c := by
  unfold isspace IsBlank
  simp [UInt8.le_iff_toNat_le]

theorem isdigit_iff (c : Byte) : isdigit c = true ↔ IsDigit c := by
  unfold isdigit IsDigit
  simp [UInt8.le_iff_toNat_le]

theorem ident_iff (c : Byte) : isIdentifierChar c = true ↔ ¬ IsDelim c := by
  unfold isIdentifierChar IsDelim
  split
  · rename_i h
    simp only [Bool.or_eq_true, beq_iff_eq] at h
    simp only [Bool.false_eq_true, false_iff, Classical.not_not]
    grind
  · rename_i h
    simp only [Bool.or_eq_true, beq_iff_eq] at h
    rw [Bool.not_eq_true', ← Bool.not_eq_true, isspace_iff]
    grind

theorem eat_blanks {ws : Bytes} (h : Blanks ws) (t : Bytes) : eatWhitespace false (ws ++ t) = eatWhitespace false t := by
  induction h with
  | nil => rfl
  | blank hc _ ih => simp [eatWhitespace, (isspace_iff _).mpr hc, ih]
  | @comment body r hb _ ih =>
    have key : ∀ body : Bytes, (10 : UInt8) ∉ body → eatWhitespace true (body ++ 10 :: (r ++ t)) = eatWhitespace false (r ++ t) := by
      intro body
      induction body with
      | nil => intro _; simp [eatWhitespace]
      | cons c b ih =>
        intro hb
        simp only [List.mem_cons, not_or] at hb
        simp only [List.cons_append, eatWhitespace]
        rw [if_neg (fun e => hb.1 e.symm), ih hb.2]
    have h59 : isspace 59 = false := by decide
    simp only [List.cons_append, List.append_assoc, eatWhitespace, h59]
    simp only [Bool.false_eq_true, if_false, if_true]
    rw [key body hb, ih]

theorem eat_idem (t : Bytes) : ∀ k, eatWhitespace false (eatWhitespace k t) = eatWhitespace k t := by
  induction t with
  | nil => intro k; cases k <;> rfl
  | cons c r ih =>
    intro k
    cases k
    · simp only [eatWhitespace]
      split
      · exact ih false
      · split
        · exact ih true
        · rename_i h1 h2
          simp [eatWhitespace, h1, h2]
    · simp only [eatWhitespace]
      split
      · exact ih false
      · exact ih true

theorem eat_cons {c : Byte} (h1 : ¬ IsBlank c) (h2 : c ≠ 59) (r : Bytes) : eatWhitespace false (c :: r) = c :: r := by
  have : isspace c = false := by rw [Bool.eq_false_iff]; exact fun h => h1 ((isspace_iff c).mp h)
  simp [eatWhitespace, this, h2]

theorem sexpRead_eat (n : Nat) (t : Bytes) : sexpRead n (eatWhitespace false t) = sexpRead n t := by
  cases n with
  | zero => simp [sexpRead]
  | succ n => simp only [sexpRead, eat_idem]

theorem sexpRead_blanks (n : Nat) {ws : Bytes} (h : Blanks ws) (t : Bytes) : sexpRead n (ws ++ t) = sexpRead n t := by
  rw [← sexpRead_eat n (ws ++ t), eat_blanks h, sexpRead_eat]

/-! ### tokens -/

theorem takeDigits_append (ds rest : Bytes) (h : ∀ c ∈ ds, IsDigit c) (hr : Delimited rest) :
    takeDigits (ds ++ rest) = (ds, rest) := by
  induction ds with
  | nil =>
    cases rest with
    | nil => rfl
    | cons c r =>
      have hc := hr c r rfl
      have h1 : c ≠ 255 := by rintro rfl; revert hc; unfold IsDelim IsBlank; decide
      have h2 : isdigit c = false := by
        rw [Bool.eq_false_iff]; intro hd
        have := (isdigit_iff c).mp hd
        unfold IsDelim IsBlank at hc; unfold IsDigit at this
        rcases hc with (rfl | hc) | rfl | rfl | rfl | rfl | rfl | rfl | rfl | rfl | rfl
        all_goals first | omega | (revert this; decide)
      simp [takeDigits, h1, h2]
  | cons c r ih =>
    have hc := h c (by simp)
    have h1 : c ≠ 255 := by rintro rfl; revert hc; unfold IsDigit; decide
    simp [takeDigits, h1, (isdigit_iff c).mpr hc, ih (fun x hx => h x (by simp [hx]))]

theorem takeIdent_append (n rest : Bytes) (h : ∀ c ∈ n, ¬ IsDelim c) (hr : Delimited rest) :
    takeIdent (n ++ rest) = (n, rest) := by
  induction n with
  | nil =>
    cases rest with
    | nil => rfl
    | cons c r =>
      have : isIdentifierChar c = false := by
        rw [Bool.eq_false_iff]; exact fun hi => (ident_iff c).mp hi (hr c r rfl)
      simp [takeIdent, this]
  | cons c r ih =>
    simp [takeIdent, (ident_iff c).mpr (h c (by simp)), ih (fun x hx => h x (by simp [hx]))]

theorem decimal_eq (ds : Bytes) : ∀ a, ds.foldl (fun a c => a * 10 + (c.toNat - 48)) a = digitsVal ds a := by
  induction ds with
  | nil => intro a; rfl
  | cons c r ih => intro a; simp only [List.foldl, digitsVal, ih]

theorem cname_eq {n : Bytes} (h : ∀ c ∈ n, c ≠ 0) : cname n = n := by
  unfold cname
  induction n with
  | nil => rfl
  | cons c r ih =>
    have := h c (by simp)
    rw [List.takeWhile_cons_of_pos (by simpa using this), ih (fun x hx => h x (by simp [hx]))]

theorem readString_literal {l b : Bytes} (h : Literal l b) (rest : Bytes) :
    ∀ acc : Bytes, acc.length + b.length ≤ 511 → readString acc (l ++ 34 :: rest) = .ok (.str (acc.reverse ++ b)) rest false := by
  induction h with
  | nil => intro acc hl; simp at hl; simp [readString]; omega
  | @plain c l b h1 h2 _ ih =>
    intro acc hl
    simp only [List.length_cons] at hl
    simp only [List.cons_append]
    rw [readString]
    · rw [if_pos (by omega), if_pos (by omega), ih _ (by simp; omega)]; simp
    · exact h1
    · exact fun e _ => h2 e
    · exact fun _ _ e _ => h2 e
  | @newline l b _ ih =>
    intro acc hl
    simp only [List.length_cons] at hl
    simp only [List.cons_append, readString]
    rw [if_pos (by omega), if_pos (by omega), if_pos trivial, ih _ (by simp; omega)]; simp
  | @escaped c l b h1 _ ih =>
    intro acc hl
    simp only [List.length_cons] at hl
    simp only [List.cons_append, readString]
    rw [if_pos (by omega), if_pos (by omega), if_neg h1, ih _ (by simp; omega)]; simp

theorem atoi_pos {ds : Bytes} (h : digitsVal ds 0 < 2 ^ 31) : atoi false ds = digitsVal ds 0 := by
  unfold atoi decimal toInt32
  rw [decimal_eq]
  generalize digitsVal ds 0 = v at h
  simp only [Bool.false_eq_true, if_false]
  rw [Int.min_eq_left (by omega)]
  rw [Int.bmod_eq_of_le (by omega) (by omega)]

theorem atoi_neg {ds : Bytes} (h : digitsVal ds 0 ≤ 2 ^ 31) : atoi true ds = -(digitsVal ds 0 : Int) := by
  unfold atoi decimal toInt32
  rw [decimal_eq]
  generalize digitsVal ds 0 = v at h
  simp only [if_true]
  rw [Int.max_eq_left (by omega)]
  rw [Int.bmod_eq_of_le (by omega) (by omega)]

theorem isDigit_not_delim {c : Byte} (h : IsDigit c) : ¬ IsDelim c := by
  unfold IsDelim IsBlank
  unfold IsDigit at h
  rintro ((rfl | hc) | rfl | rfl | rfl | rfl | rfl | rfl | rfl | rfl | rfl)
  all_goals first | omega | (revert h; decide)

theorem isDigit_ne_zero {c : Byte} (h : IsDigit c) : c ≠ 0 := by
  rintro rfl; revert h; unfold IsDigit; decide

theorem not_delim_blank {c : Byte} (h : ¬ IsDelim c) : ¬ IsBlank c ∧ c ≠ 59 ∧ c ≠ 40 ∧ c ≠ 41 ∧ c ≠ 34 ∧ c ≠ 39 ∧
    c ≠ 96 ∧ c ≠ 44 ∧ c ≠ 91 ∧ c ≠ 93 := by
  unfold IsDelim at h
  grind

/-- a symbol token -/
theorem read_ident {n : Bytes} (hne : n ≠ []) (hd : ∀ c ∈ n, ¬ IsDelim c) (hf : ∀ c r, n = c :: r → ¬ IsDigit c)
    (hl : n.length ≤ 511) {rest : Bytes} (hr : Delimited rest) (k : Nat) :
    sexpRead (k + 1) (n ++ rest) = .ok (symbolOrNumber n) rest false := by
  have ht := takeIdent_append n rest hd hr
  cases n with
  | nil => simp at hne
  | cons c r =>
    obtain ⟨a1, a2, a3, a4, a5, a6, a7, a8, a9, a10⟩ := not_delim_blank (hd c (by simp))
    have hdig : isdigit c = false := by
      rw [Bool.eq_false_iff]; exact fun h => hf c r rfl ((isdigit_iff c).mp h)
    have hid : isIdentifierChar c = true := (ident_iff c).mpr (hd c (by simp))
    simp only [List.cons_append] at ht ⊢
    simp only [sexpRead]
    rw [eat_cons a1 a2]
    simp only [hdig, hid, a3, a5, a6, a7, a8, a9, Bool.false_eq_true, if_false, if_true]
    unfold readSymbol
    rw [ht]
    simp only
    rw [if_pos (by omega)]

theorem symbolOrNumber_sym {n : Bytes} (h : SymName n) : symbolOrNumber n = .sym n := by
  obtain ⟨h1, h2, h3, h4, h5, h6⟩ := h
  have hc : cname n = n := cname_eq (fun c hc => (h2 c hc).2)
  unfold symbolOrNumber
  rw [hc, if_neg h4, if_neg h5]
  split
  · rename_i ds
    rcases h6 ds rfl with rfl | ⟨c, hc, hn⟩
    · simp
    · rw [if_neg]
      rintro ⟨-, ha⟩
      rw [List.all_eq_true] at ha
      exact hn ((isdigit_iff c).mp (ha c hc))
  · rfl

theorem symbolOrNumber_neg {ds : Bytes} (h0 : ds ≠ []) (h : ∀ c ∈ ds, IsDigit c) (hv : digitsVal ds 0 ≤ 2 ^ 31) :
    symbolOrNumber (45 :: ds) = .int (-(digitsVal ds 0 : Int)) := by
  have hc : cname (45 :: ds) = 45 :: ds := cname_eq (by
    intro c hc
    rcases List.mem_cons.mp hc with rfl | hc
    · decide
    · exact isDigit_ne_zero (h c hc))
  unfold symbolOrNumber
  rw [hc, if_neg, if_neg]
  · simp only
    rw [if_pos, atoi_neg hv]
    refine ⟨List.length_pos_iff.mpr h0, ?_⟩
    rw [List.all_eq_true]
    exact fun c hc => (isdigit_iff c).mpr (h c hc)
  · intro e
    have : (45 : UInt8) = 102 := by have := congrArg List.head? e; simpa [ascii] using this
    revert this; decide
  · intro e
    have : (45 : UInt8) = 116 := by have := congrArg List.head? e; simpa [ascii] using this
    revert this; decide

theorem readNumber_digits {ds : Bytes} (h0 : ds ≠ []) (h : ∀ c ∈ ds, IsDigit c) (hl : ds.length ≤ 29)
    (hv : digitsVal ds 0 < 2 ^ 31) {rest : Bytes} (hr : Delimited rest) (k : Nat) :
    sexpRead (k + 1) (ds ++ rest) = .ok (.int (digitsVal ds 0)) rest false := by
  have ht := takeDigits_append ds rest h hr
  cases ds with
  | nil => simp at h0
  | cons c r =>
    have hc := h c (by simp)
    obtain ⟨a1, a2, -⟩ := not_delim_blank (isDigit_not_delim hc)
    simp only [List.cons_append] at ht ⊢
    simp only [sexpRead]
    rw [eat_cons a1 a2]
    simp only [(isdigit_iff c).mpr hc, if_true]
    unfold readNumber
    rw [ht]
    simp only
    rw [if_pos (by omega), atoi_pos hv]

theorem ascii_true_not_delim : ∀ c ∈ ascii "true", ¬ IsDelim c := by
  intro c hc
  rw [← ident_iff]
  revert c
  decide
theorem ascii_false_not_delim : ∀ c ∈ ascii "false", ¬ IsDelim c := by
  intro c hc
  rw [← ident_iff]
  revert c
  decide

/-- the first character a reader looks at -/
theorem text_first {k : Bool} {t : Bytes} {d : Sexp} (h : Text k t d) (rest : Bytes) :
    ∃ c r, eatWhitespace false (t ++ rest) = c :: r ∧ c ≠ 41 ∧ c ≠ 255 ∧ c ≠ 93 := by
  have self : ∀ (c : Byte) (r : Bytes), ¬ IsBlank c → c ≠ 59 → c ≠ 41 → c ≠ 255 → c ≠ 93 →
      ∃ c' r', eatWhitespace false (c :: r) = c' :: r' ∧ c' ≠ 41 ∧ c' ≠ 255 ∧ c' ≠ 93 :=
    fun c r a b d e f => ⟨c, r, eat_cons a b r, d, e, f⟩
  match h with
  | .blank hw h =>
    rw [List.append_assoc, eat_blanks hw]
    exact text_first h rest
  | .num (ds := ds) h0 h hl hv =>
    cases ds with
    | nil => simp at h0
    | cons c r =>
      have hc := h c (by simp)
      obtain ⟨a1, a2, a3, a4, a5, a6, a7, a8, a9, a10⟩ := not_delim_blank (isDigit_not_delim hc)
      exact self c _ a1 a2 a4 (by rintro rfl; revert hc; unfold IsDigit; decide) a10
  | .neg h0 h hl hv =>
    exact self 45 _ (by unfold IsBlank; decide) (by decide) (by decide) (by decide) (by decide)
  | .true => exact self 116 _ (by unfold IsBlank; decide) (by decide) (by decide) (by decide) (by decide)
  | .false => exact self 102 _ (by unfold IsBlank; decide) (by decide) (by decide) (by decide) (by decide)
  | .sym h hl =>
    obtain ⟨h1, h2, h3, -⟩ := h
    cases t with
    | nil => simp at h1
    | cons c r =>
      obtain ⟨a1, a2, a3, a4, a5, a6, a7, a8, a9, a10⟩ := not_delim_blank (h2 c (by simp)).1
      exact self c _ a1 a2 a4 (h3 c r rfl).2 a10
  | .str _ _ => exact self 34 _ (by unfold IsBlank; decide) (by decide) (by decide) (by decide) (by decide)
  | .quote _ => exact self 39 _ (by unfold IsBlank; decide) (by decide) (by decide) (by decide) (by decide)
  | .backquote _ => exact self 96 _ (by unfold IsBlank; decide) (by decide) (by decide) (by decide) (by decide)
  | .unquote _ => exact self 44 _ (by unfold IsBlank; decide) (by decide) (by decide) (by decide) (by decide)
  | .list _ => exact self 40 _ (by unfold IsBlank; decide) (by decide) (by decide) (by decide) (by decide)
  | .bracket _ _ => exact self 91 _ (by unfold IsBlank; decide) (by decide) (by decide) (by decide) (by decide)

theorem head_ne_41 {t c r} (h : eatWhitespace false t = c :: r) (hc : c ≠ 41) : t.head? ≠ some 41 := by
  intro e
  cases t with
  | nil => simp at e
  | cons a b =>
    simp at e
    subst e
    rw [eat_cons (by unfold IsBlank; decide) (by decide)] at h
    simp at h
    exact hc h.1.symm

theorem peek_of_eat {t : Bytes} {c : Byte} {r : Bytes} (h : eatWhitespace false t = c :: r) (hc : c ≠ 255) :
    peekFirstChar t = (some c, r) := by
  unfold peekFirstChar
  rw [h]
  simp [hc]

theorem listText_first {t : Bytes} {ds : List Sexp} (h : ListText t ds) (rest : Bytes) :
    ∃ c r, eatWhitespace false (t ++ rest) = c :: r ∧ c ≠ 255 := by
  cases h with
  | close => exact ⟨41, rest, eat_cons (by unfold IsBlank; decide) (by decide) _, by decide⟩
  | item h hw hr hk =>
    rw [List.append_assoc, List.append_assoc]
    obtain ⟨c, r, e, -, h2, -⟩ := text_first h (_ ++ (_ ++ rest))
    exact ⟨c, r, e, h2⟩

mutual
/-- every text is read as the datum it stands for, up to its end -/
theorem text_reads {k : Bool} {t : Bytes} {d : Sexp} (h : Text k t d) (rest : Bytes)
    (hr : k = false → Delimited rest) : ∃ N, ∀ n, N ≤ n → sexpRead n (t ++ rest) = .ok d rest false := by
  match h with
  | .blank hw h =>
    obtain ⟨N, hN⟩ := text_reads h rest hr
    exact ⟨N, fun n hn => by rw [List.append_assoc, sexpRead_blanks n hw]; exact hN n hn⟩
  | .num h0 h hl hv =>
    refine ⟨1, fun n hn => ?_⟩
    obtain ⟨n, rfl⟩ : ∃ m, n = m + 1 := ⟨n - 1, by omega⟩
    exact readNumber_digits h0 h hl hv (hr rfl) n
  | .neg (ds := ds) h0 h hl hv =>
    refine ⟨1, fun n hn => ?_⟩
    obtain ⟨n, rfl⟩ : ∃ m, n = m + 1 := ⟨n - 1, by omega⟩
    rw [← symbolOrNumber_neg h0 h hv]
    refine read_ident (by simp) ?_ ?_ (by simp; omega) (hr rfl) n
    · intro c hc
      rcases List.mem_cons.mp hc with rfl | hc
      · rw [← ident_iff]; decide
      · exact isDigit_not_delim (h c hc)
    · intro c r e
      simp only [List.cons.injEq] at e
      rw [← e.1]; unfold IsDigit; decide
  | .true =>
    refine ⟨1, fun n hn => ?_⟩
    obtain ⟨n, rfl⟩ : ∃ m, n = m + 1 := ⟨n - 1, by omega⟩
    have := read_ident (n := ascii "true") (by decide) ascii_true_not_delim (by
      intro c r e
      have : c = 116 := by have := congrArg List.head? e; simpa [ascii] using this.symm
      rw [this]; unfold IsDigit; decide) (by decide) (hr rfl) n
    rw [this]; rfl
  | .false =>
    refine ⟨1, fun n hn => ?_⟩
    obtain ⟨n, rfl⟩ : ∃ m, n = m + 1 := ⟨n - 1, by omega⟩
    have := read_ident (n := ascii "false") (by decide) ascii_false_not_delim (by
      intro c r e
      have : c = 102 := by have := congrArg List.head? e; simpa [ascii] using this.symm
      rw [this]; unfold IsDigit; decide) (by decide) (hr rfl) n
    rw [this]; rfl
  | .sym h hl =>
    refine ⟨1, fun n hn => ?_⟩
    obtain ⟨n, rfl⟩ : ∃ m, n = m + 1 := ⟨n - 1, by omega⟩
    rw [← symbolOrNumber_sym h]
    have hs := symbolOrNumber_sym h
    obtain ⟨h1, h2, h3, -⟩ := h
    have := read_ident h1 (fun c hc => (h2 c hc).1) (fun c r e => (h3 c r e).1) hl (hr rfl) n
    rw [this, hs]
  | .str (l := l) (b := b) h hl =>
    refine ⟨1, fun n hn => ?_⟩
    obtain ⟨n, rfl⟩ : ∃ m, n = m + 1 := ⟨n - 1, by omega⟩
    have e : (34 :: l ++ [34]) ++ rest = 34 :: (l ++ 34 :: rest) := by simp
    rw [e]
    simp only [sexpRead]
    rw [eat_cons (by unfold IsBlank; decide) (by decide)]
    have hd : isdigit 34 = false := by decide
    simp only [hd, Bool.false_eq_true, if_false]
    have := readString_literal h rest [] (by simpa using hl)
    simpa using this
  | .quote h =>
    obtain ⟨N, hN⟩ := text_reads h rest hr
    refine ⟨N + 1, fun n hn => ?_⟩
    obtain ⟨n, rfl⟩ : ∃ m, n = m + 1 := ⟨n - 1, by omega⟩
    simp only [List.cons_append, sexpRead]
    rw [eat_cons (by unfold IsBlank; decide) (by decide)]
    have hd : isdigit 39 = false := by decide
    simp only [hd, Bool.false_eq_true, if_false, if_true, hN n (by omega)]
    rfl
  | .backquote h =>
    obtain ⟨N, hN⟩ := text_reads h rest hr
    refine ⟨N + 1, fun n hn => ?_⟩
    obtain ⟨n, rfl⟩ : ∃ m, n = m + 1 := ⟨n - 1, by omega⟩
    simp only [List.cons_append, sexpRead]
    rw [eat_cons (by unfold IsBlank; decide) (by decide)]
    have hd : isdigit 96 = false := by decide
    simp only [hd, Bool.false_eq_true, if_false, if_true, hN n (by omega)]
    rfl
  | .unquote h =>
    obtain ⟨N, hN⟩ := text_reads h rest hr
    refine ⟨N + 1, fun n hn => ?_⟩
    obtain ⟨n, rfl⟩ : ∃ m, n = m + 1 := ⟨n - 1, by omega⟩
    simp only [List.cons_append, sexpRead]
    rw [eat_cons (by unfold IsBlank; decide) (by decide)]
    have hd : isdigit 44 = false := by decide
    simp only [hd, Bool.false_eq_true, if_false, if_true, hN n (by omega)]
    rfl
  | .list h =>
    obtain ⟨N, hN⟩ := listText_reads h rest
    refine ⟨N + 1, fun n hn => ?_⟩
    obtain ⟨n, rfl⟩ : ∃ m, n = m + 1 := ⟨n - 1, by omega⟩
    simp only [List.cons_append, sexpRead]
    rw [eat_cons (by unfold IsBlank; decide) (by decide)]
    have hd : isdigit 40 = false := by decide
    simp only [hd, Bool.false_eq_true, if_false, if_true]
    exact (hN n (by omega)).1
  | .bracket (ws := ws) (t := t) (ds := ds) (hd := hd) hw h =>
    obtain ⟨N, hN⟩ := bracketText_reads h rest
    refine ⟨N + 2, fun n hn => ?_⟩
    obtain ⟨n, rfl⟩ : ∃ m, n = m + 2 := ⟨n - 2, by omega⟩
    have e : (91 :: ws ++ t) ++ rest = 91 :: (ws ++ (t ++ rest)) := by simp
    rw [e]
    simp only [sexpRead]
    rw [eat_cons (by unfold IsBlank; decide) (by decide)]
    have h91 : isdigit 91 = false := by decide
    simp only [h91, Bool.false_eq_true, if_false, if_true, readListMacro]
    have hp : peekFirstChar (ws ++ (t ++ rest)) = peekFirstChar (t ++ rest) := by
      unfold peekFirstChar; rw [eat_blanks hw]
    have := hN n (by omega) [] false
    rw [hp, this]
    cases hd <;> rfl
/-- the rest of a list -/
theorem listText_reads {t : Bytes} {ds : List Sexp} (h : ListText t ds) (rest : Bytes) :
    ∃ N, ∀ n, N ≤ n → readCons n (t ++ rest) = .ok (Sexp.list ds) rest false ∧
      readCons n (eatWhitespace false (t ++ rest)) = .ok (Sexp.list ds) rest false := by
  match h with
  | .close =>
    refine ⟨1, fun n hn => ?_⟩
    obtain ⟨n, rfl⟩ : ∃ m, n = m + 1 := ⟨n - 1, by omega⟩
    have e : ([41] : Bytes) ++ rest = 41 :: rest := rfl
    rw [e, eat_cons (by unfold IsBlank; decide) (by decide)]
    simp [readCons, Sexp.list]
  | .item (k := k) (t := t1) (d := d) (ws := ws) (r := r) (ds := ds) h hw hr hk =>
    obtain ⟨N1, h1⟩ := text_reads h (ws ++ r ++ rest) (by
      intro e c r' he
      have := hk e
      cases hwr : ws ++ r with
      | nil =>
        have hne : r ≠ [] := by
          obtain ⟨c, r', e', -⟩ := listText_first hr []
          intro e; rw [e] at e'; simp [eatWhitespace] at e'
        simp at hwr; exact absurd hwr.2 hne
      | cons a b =>
        rw [hwr] at he this
        simp at he
        rw [← he.1]
        exact this a b rfl)
    obtain ⟨N2, h2⟩ := listText_reads hr rest
    refine ⟨max N1 N2 + 1, fun n hn => ?_⟩
    obtain ⟨n, rfl⟩ : ∃ m, n = m + 1 := ⟨n - 1, by omega⟩
    obtain ⟨c, r', e, c1, c2, -⟩ := text_first h (ws ++ r ++ rest)
    obtain ⟨c', r'', e', c1'⟩ := listText_first hr rest
    have hpk : peekFirstChar (ws ++ r ++ rest) = (some c', r'') := by
      apply peek_of_eat _ c1'
      rw [List.append_assoc, eat_blanks hw, e']
    have hun : ungetc (some c') r'' = eatWhitespace false (r ++ rest) := by rw [e']; rfl
    have hA : t1 ++ ws ++ r ++ rest = t1 ++ (ws ++ r ++ rest) := by simp
    constructor
    · rw [hA]
      simp only [readCons]
      rw [if_neg (head_ne_41 e c1), h1 n (by omega)]
      simp only [Res.bind, hpk, hun, (h2 n (by omega)).2]
      simp [Sexp.list]
    · rw [hA]
      simp only [readCons]
      rw [if_neg (by rw [e]; simpa using c1), sexpRead_eat, h1 n (by omega)]
      simp only [Res.bind, hpk, hun, (h2 n (by omega)).2]
      simp [Sexp.list]
/-- the rest of a bracketed list -/
theorem bracketText_reads {t : Bytes} {ds : List Sexp} {b : Bool} (h : BracketText t ds b) (rest : Bytes) :
    ∃ N, ∀ n, N ≤ n → ∀ (acc : List Sexp) (dot : Bool),
      readListLoop n (peekFirstChar (t ++ rest)).1 (peekFirstChar (t ++ rest)).2 acc dot =
        .ok (.cons (.sym (ascii (if dot || b then "list-rest" else "list"))) (Sexp.list (acc.reverse ++ ds))) rest false := by
  match h with
  | .close =>
    refine ⟨1, fun n hn acc dot => ?_⟩
    obtain ⟨n, rfl⟩ : ∃ m, n = m + 1 := ⟨n - 1, by omega⟩
    have e : ([93] : Bytes) ++ rest = 93 :: rest := rfl
    rw [e, peek_of_eat (eat_cons (by unfold IsBlank; decide) (by decide) rest) (by decide)]
    simp [readListLoop]
  | .item (k := k) (t := t1) (d := d) (ws := ws) (r := r) (ds := ds) (b := b) h hd hw hr hk =>
    have hne : r ≠ [] := by
      cases hr with
      | close => simp
      | item h' =>
        intro e
        simp only [List.append_eq_nil_iff] at e
        obtain ⟨c, r', e', -⟩ := text_first h' []
        rw [e.1.1] at e'
        simp [eatWhitespace] at e'
      | dot => simp
    obtain ⟨N1, h1⟩ := text_reads h (ws ++ r ++ rest) (by
      intro e c r' he
      have := hk e
      cases hwr : ws ++ r with
      | nil => simp at hwr; exact absurd hwr.2 hne
      | cons a b =>
        rw [hwr] at he this
        simp at he
        rw [← he.1]
        exact this a b rfl)
    obtain ⟨N2, h2⟩ := bracketText_reads hr rest
    refine ⟨max N1 N2 + 1, fun n hn acc dot => ?_⟩
    obtain ⟨n, rfl⟩ : ∃ m, n = m + 1 := ⟨n - 1, by omega⟩
    obtain ⟨c, r', e, c1, c2, c3⟩ := text_first h (ws ++ r ++ rest)
    have hA : t1 ++ ws ++ r ++ rest = t1 ++ (ws ++ r ++ rest) := by simp
    rw [hA, peek_of_eat e c2]
    -- the text starts with `c`
    have hc : t1 ++ (ws ++ r ++ rest) = c :: r' ∧ c ≠ 46 := by
      cases t1 with
      | nil =>
        have := text_first h []
        simp [eatWhitespace] at this
      | cons a t1 =>
        obtain ⟨d1, d2, d3⟩ := hd a t1 rfl
        rw [List.cons_append, eat_cons d2 d3] at e
        simp only [List.cons.injEq] at e
        rw [List.cons_append, e.1, e.2, ← e.1]
        exact ⟨rfl, d1⟩
    have hp : peekFirstChar (ws ++ r ++ rest) = peekFirstChar (r ++ rest) := by
      unfold peekFirstChar; rw [List.append_assoc, eat_blanks hw]
    have hs := h1 n (by omega)
    rw [hc.1] at hs
    rw [readListLoop]
    · rw [hs]
      simp only [Res.bind, hp, h2 n (by omega)]
      simp
    · exact fun e => c3 e
    · exact fun e => hc.2 e
  | .dot (ws := ws) (r := r) (ds := ds) (b := b) hw hr =>
    obtain ⟨N2, h2⟩ := bracketText_reads hr rest
    refine ⟨N2 + 1, fun n hn acc dot => ?_⟩
    obtain ⟨n, rfl⟩ : ∃ m, n = m + 1 := ⟨n - 1, by omega⟩
    have e : (46 :: ws ++ r) ++ rest = 46 :: (ws ++ (r ++ rest)) := by simp
    rw [e, peek_of_eat (eat_cons (by unfold IsBlank; decide) (by decide) _) (by decide)]
    have hp : peekFirstChar (ws ++ (r ++ rest)) = peekFirstChar (r ++ rest) := by
      unfold peekFirstChar; rw [eat_blanks hw]
    simp only [readListLoop]
    rw [hp, h2 n (by omega)]
    simp
end

/-- the rest of a bracketed list that is never closed -/
theorem openBracket_reads {t : Bytes} {ds : List Sexp} (h : OpenBracketText t ds) :
    ∃ N, ∀ n, N ≤ n → ∀ (acc : List Sexp),
      readListLoop n (peekFirstChar t).1 (peekFirstChar t).2 acc false =
        .ok (.cons (.sym (ascii "list")) (Sexp.list (acc.reverse ++ ds))) [] false := by
  induction h with
  | stop =>
    refine ⟨1, fun n hn acc => ?_⟩
    obtain ⟨n, rfl⟩ : ∃ m, n = m + 1 := ⟨n - 1, by omega⟩
    have hp : peekFirstChar [] = (none, []) := by decide
    rw [hp]
    simp [readListLoop]
  | @item k t1 d ws r ds h hd hw hr hk ih =>
    obtain ⟨N1, h1⟩ := text_reads h (ws ++ r) hk
    obtain ⟨N2, h2⟩ := ih
    refine ⟨max N1 N2 + 1, fun n hn acc => ?_⟩
    obtain ⟨n, rfl⟩ : ∃ m, n = m + 1 := ⟨n - 1, by omega⟩
    obtain ⟨c, r', e, c1, c2, c3⟩ := text_first h (ws ++ r)
    rw [List.append_assoc, peek_of_eat e c2]
    have hc : t1 ++ (ws ++ r) = c :: r' ∧ c ≠ 46 := by
      cases t1 with
      | nil =>
        have := text_first h []
        simp [eatWhitespace] at this
      | cons a t1 =>
        obtain ⟨d1, d2, d3⟩ := hd a t1 rfl
        rw [List.cons_append, eat_cons d2 d3] at e
        simp only [List.cons.injEq] at e
        rw [List.cons_append, e.1, e.2, ← e.1]
        exact ⟨rfl, d1⟩
    have hp : peekFirstChar (ws ++ r) = peekFirstChar r := by
      unfold peekFirstChar; rw [eat_blanks hw]
    have hs := h1 n (by omega)
    rw [hc.1] at hs
    rw [readListLoop]
    · rw [hs]
      simp only [Res.bind, hp, h2 n (by omega)]
      simp
    · exact fun e => c3 e
    · exact fun e => hc.2 e

end Cora.Reader
