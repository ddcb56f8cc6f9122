import Verif.Lemmas.Reader
/-
C18-C22, C57: reading and printing.
-/
namespace Cora.Reader
open Spec

/-! ## fuel -/

theorem Res.bind_ne_fuel {α β : Type} {r : Res α} {f : α → Bytes → Res β} (h : r.bind f ≠ .fuel) : r ≠ .fuel := by
  intro e; subst e; simp [Res.bind] at h

theorem Res.bind_congr {α β : Type} {r r' : Res α} {f f' : α → Bytes → Res β} (hr : r ≠ .fuel → r' = r)
    (hf : ∀ v t, f v t ≠ .fuel → f' v t = f v t) (h : r.bind f ≠ .fuel) : r'.bind f' = r.bind f := by
  have := hr (Res.bind_ne_fuel h)
  subst this
  cases r' with
  | ok v t e =>
    have : f v t ≠ .fuel := by
      intro e'; simp [Res.bind, e'] at h
    simp only [Res.bind, hf v t this]
  | exit => rfl
  | overflow => rfl
  | fuel => rfl

/-- more fuel does not change a result -/
theorem fuel_mono (n : Nat) :
    (∀ t, sexpRead n t ≠ .fuel → sexpRead (n + 1) t = sexpRead n t) ∧
    (∀ t, readCons n t ≠ .fuel → readCons (n + 1) t = readCons n t) ∧
    (∀ t, readListMacro n t ≠ .fuel → readListMacro (n + 1) t = readListMacro n t) ∧
    (∀ b r acc dot, readListLoop n b r acc dot ≠ .fuel → readListLoop (n + 1) b r acc dot = readListLoop n b r acc dot) := by
  induction n with
  | zero => simp [sexpRead, readCons, readListMacro, readListLoop]
  | succ n ih =>
    obtain ⟨i1, i2, i3, i4⟩ := ih
    refine ⟨?_, ?_, ?_, ?_⟩
    · intro t h
      rw [sexpRead] at h
      rw [sexpRead]
      conv => rhs; rw [sexpRead]
      split
      · rfl
      · rename_i c r he
        rw [he] at h
        simp only at h ⊢
        split
        · rfl
        · rename_i h1
          rw [if_neg h1] at h
          split
          · rename_i h2
            rw [if_pos h2] at h
            exact Res.bind_congr (i1 _) (fun _ _ _ => rfl) h
          · rename_i h2
            rw [if_neg h2] at h
            split
            · rename_i h3
              rw [if_pos h3] at h
              exact i2 _ h
            · rename_i h3
              rw [if_neg h3] at h
              split
              · rename_i h4
                rw [if_pos h4] at h
                exact i3 _ h
              · rename_i h4
                rw [if_neg h4] at h
                split
                · rename_i h5
                  rw [if_pos h5] at h
                  exact Res.bind_congr (i1 _) (fun _ _ _ => rfl) h
                · rename_i h5
                  rw [if_neg h5] at h
                  split
                  · rename_i h6
                    rw [if_pos h6] at h
                    exact Res.bind_congr (i1 _) (fun _ _ _ => rfl) h
                  · rfl
    · intro t h
      rw [readCons] at h
      rw [readCons]
      conv => rhs; rw [readCons]
      split
      · rfl
      · rename_i h1
        rw [if_neg h1] at h
        refine Res.bind_congr (i1 _) (fun v r hv => ?_) h
        exact Res.bind_congr (i2 _) (fun _ _ _ => rfl) hv
    · intro t h
      rw [readListMacro] at h
      rw [readListMacro]
      conv => rhs; rw [readListMacro]
      exact Res.bind_congr (i4 _ _ _ _) (fun _ _ _ => rfl) h
    · intro b r acc dot h
      cases b with
      | none => simp only [readListLoop]
      | some c =>
        by_cases h93 : c = 93
        · subst h93; simp only [readListLoop]
        · by_cases h46 : c = 46
          · subst h46
            simp only [readListLoop] at h ⊢
            exact i4 _ _ _ _ h
          · have e : ∀ m, readListLoop (m + 1) (some c) r acc dot = (sexpRead m (c :: r)).bind fun o r =>
                readListLoop m (peekFirstChar r).1 (peekFirstChar r).2 (o :: acc) dot := by
              intro m
              rw [readListLoop]
              · exact h93
              · exact h46
            rw [e] at h
            rw [e, e]
            exact Res.bind_congr (i1 _) (fun v r hv => i4 _ _ _ _ hv) h

theorem sexpRead_mono {n m : Nat} (hnm : n ≤ m) {t : Bytes} (h : sexpRead n t ≠ .fuel) : sexpRead m t = sexpRead n t := by
  induction m with
  | zero => obtain rfl : n = 0 := by omega
            rfl
  | succ m ih =>
    by_cases e : n = m + 1
    · subst e; rfl
    · have := ih (by omega)
      rw [(fuel_mono m).1 t (by rw [this]; exact h), this]

/-! ## C19 -/

/-- C19 (a). Blanks and comments in front of any input change nothing, whatever the outcome. -/
theorem C19_leading_blanks (n : Nat) (ws t : Bytes) (h : Blanks ws) : sexpRead n (ws ++ t) = sexpRead n t :=
  sexpRead_blanks n h t

/-- C19 (b). Every text of the grammar `Spec.Text`, which allows blanks and comments between any two tokens,
is read as the datum it stands for, and reading stops right after it. -/
theorem C19_texts_are_read {k : Bool} {t : Bytes} {d : Sexp} (h : Text k t d) (rest : Bytes)
    (hr : k = false → Delimited rest) : ∃ N, ∀ n, N ≤ n → sexpRead n (t ++ rest) = .ok d rest false :=
  text_reads h rest hr

/-- The reader's answer does not depend on the fuel, so a text stands for at most one datum. -/
theorem C19_unambiguous {k k' : Bool} {t : Bytes} {d d' : Sexp} (h : Text k t d) (h' : Text k' t d') : d = d' := by
  have hd : Delimited [] := by intro c r e; simp at e
  obtain ⟨N, hN⟩ := text_reads h [] (fun _ => hd)
  obtain ⟨N', hN'⟩ := text_reads h' [] (fun _ => hd)
  have a := hN (max N N') (by omega)
  have b := hN' (max N N') (by omega)
  rw [a] at b
  injection b

-- "(a ;x⏎ 12 [b . c])"
example : sexpRead 20 (ascii "(a ;x\n 12 [b . c] )") =
    .ok (Sexp.list [.sym (ascii "a"), .int 12, Sexp.list [.sym (ascii "list-rest"), .sym (ascii "b"), .sym (ascii "c")]]) [] false := by
  decide +kernel
example : ∃ ds, ListText [97, 32, 98, 41] ds ∧ ds = [.sym [97], .sym [98]] := by
  have sy : ∀ c : UInt8, isIdentifierChar c = true → c ≠ 0 → isdigit c = false → c ≠ 255 → c ≠ 45 → SymName [c] := by
    intro c h1 h2 h3 h4 h5
    refine ⟨by simp, ?_, ?_, ?_, ?_, ?_⟩
    · intro x hx; simp at hx; subst hx; exact ⟨(ident_iff x).mp h1, h2⟩
    · intro x r e; simp at e; rw [← e.1]
      exact ⟨fun hd => by rw [(isdigit_iff c).mpr hd] at h3; simp at h3, h4⟩
    · intro e; have := congrArg List.length e; simp [ascii] at this
    · intro e; have := congrArg List.length e; simp [ascii] at this
    · intro r e; simp at e; exact absurd e.1 h5
  have a := Text.sym (sy 97 (by decide) (by decide) (by decide) (by decide) (by decide)) (by decide)
  have b := Text.sym (sy 98 (by decide) (by decide) (by decide) (by decide) (by decide)) (by decide)
  refine ⟨_, ?_, rfl⟩
  exact ListText.item (ws := [32]) a (.blank (.inl rfl) .nil)
    (ListText.item (ws := []) b .nil .close (by intro _ c r e; simp at e; rw [← e.1]; simp [IsDelim]))
    (by intro _ c r e; simp at e; rw [← e.1]; simp [IsDelim, IsBlank])

/-! ## C18 -/

theorem decDigits_spec (n : Nat) : decDigits n ≠ [] ∧ (∀ c ∈ decDigits n, IsDigit c) ∧ (∀ a, digitsVal (decDigits n) a = a * 10 ^ (decDigits n).length + n) := by
  induction n using decDigits.induct with
  | case1 n h =>
    rw [decDigits, if_pos h]
    have ht : (UInt8.ofNat (48 + n)).toNat = 48 + n := by simp; omega
    refine ⟨by simp, ?_, ?_⟩
    · intro c hc; simp only [List.mem_singleton] at hc; subst hc; unfold IsDigit; omega
    · intro a; simp only [digitsVal, ht, List.length_singleton]; omega
  | case2 n h ih =>
    obtain ⟨i1, i2, i3⟩ := ih
    rw [decDigits, if_neg h]
    have ht : (UInt8.ofNat (48 + n % 10)).toNat = 48 + n % 10 := by simp; omega
    have happ : ∀ (l : Bytes) (x : Byte) (a : Nat), digitsVal (l ++ [x]) a = digitsVal l a * 10 + (x.toNat - 48) := by
      intro l x
      induction l with
      | nil => intro a; rfl
      | cons c r ih => intro a; simp only [List.cons_append, digitsVal, ih]
    refine ⟨by simp, ?_, ?_⟩
    · intro c hc
      rcases List.mem_append.mp hc with hc | hc
      · exact i2 c hc
      · simp only [List.mem_singleton] at hc; subst hc; unfold IsDigit; omega
    · intro a
      rw [happ, i3, ht, List.length_append, List.length_singleton, Nat.pow_succ]
      generalize (decDigits (n / 10)).length = L
      have : a * (10 ^ L * 10) = a * 10 ^ L * 10 := by rw [Nat.mul_assoc]
      omega

theorem decDigits_length (n k : Nat) (hk : 0 < k) (h : n < 10 ^ k) : (decDigits n).length ≤ k := by
  induction n using decDigits.induct generalizing k with
  | case1 n h' => rw [decDigits, if_pos h']; simp; omega
  | case2 n h' ih =>
    rw [decDigits, if_neg h']
    have hk1 : 1 < k := by
      rcases Nat.lt_or_ge 1 k with h1 | h1
      · exact h1
      · obtain rfl : k = 1 := by omega
        simp at h; omega
    have := ih (k - 1) (by omega) (by
      rw [Nat.div_lt_iff_lt_mul (by decide), ← Nat.pow_succ]
      have : (k - 1).succ = k := by omega
      rw [this]; exact h)
    simp; omega

theorem printInt_text {n : Int} (h1 : -(2 : Int) ^ 31 ≤ n) (h2 : n < 2 ^ 31) : Text false (printInt n) (.int n) := by
  obtain ⟨a, b, c⟩ := decDigits_spec n.natAbs
  have hv : digitsVal (decDigits n.natAbs) 0 = n.natAbs := by rw [c]; simp
  have hl : (decDigits n.natAbs).length ≤ 29 := by
    have := decDigits_length n.natAbs 10 (by decide) (by
      have : (10 : Nat) ^ 10 = 10000000000 := by decide
      omega)
    omega
  unfold printInt
  split
  · have := Text.neg a b (by omega) (by rw [hv]; omega)
    rw [hv] at this
    have e : -(n.natAbs : Int) = n := by omega
    rw [e] at this; exact this
  · have := Text.num a b hl (by rw [hv]; omega)
    rw [hv] at this
    have e : (n.natAbs : Int) = n := by omega
    rw [e] at this; exact this

theorem literal_plain {b : Bytes} (h : ∀ c ∈ b, c ≠ 34 ∧ c ≠ 92) : Literal b b := by
  induction b with
  | nil => exact .nil
  | cons c r ih => exact .plain (h c (by simp)).1 (h c (by simp)).2 (ih (fun x hx => h x (by simp [hx])))

/-- what the printer produces is a text of the datum -/
theorem print_text (d : Sexp) (h : Printable d) :
    (∃ t k, printObj d = some t ∧ Text k t d) ∧
    (d.isList = true → ∃ t ds ws r, printTail d = some t ∧ t = ws ++ r ∧ Blanks ws ∧ ListText r ds ∧ d = Sexp.list ds ∧
      Delimited t) := by
  induction d with
  | int n => exact ⟨⟨_, _, rfl, printInt_text h.1 h.2⟩, by simp [Sexp.isList]⟩
  | bool b =>
    refine ⟨?_, by simp [Sexp.isList]⟩
    cases b
    · exact ⟨_, _, rfl, Text.false⟩
    · exact ⟨_, _, rfl, Text.true⟩
  | nil =>
    refine ⟨⟨_, _, rfl, Text.list .close⟩, fun _ => ?_⟩
    exact ⟨_, [], [], [41], rfl, rfl, .nil, .close, rfl, by intro c r e; simp at e; rw [← e.1]; simp [IsDelim]⟩
  | sym n =>
    refine ⟨?_, by simp [Sexp.isList]⟩
    obtain ⟨h1, h2⟩ := h
    refine ⟨n, false, ?_, Text.sym h1 (by omega)⟩
    simp only [printObj]
    rw [if_pos (by omega), cname_eq (fun c hc => (h1.2.1 c hc).2)]
  | str b =>
    refine ⟨?_, by simp [Sexp.isList]⟩
    obtain ⟨h1, h2⟩ := h
    refine ⟨34 :: b ++ [34], true, ?_, Text.str (literal_plain (fun c hc => ⟨(h1 c hc).1, (h1 c hc).2.1⟩)) h2⟩
    simp only [printObj]
    rw [cname_eq (fun c hc => (h1 c hc).2.2)]
  | cons a d iha ihd =>
    obtain ⟨ha, hd, hl⟩ := h
    obtain ⟨⟨ta, ka, ea, xa⟩, -⟩ := iha ha
    obtain ⟨td, ds, ws, r, ed, rfl, hw, hlt, rfl, hdel⟩ := (ihd hd).2 hl
    have hlist : ListText (ta ++ ws ++ r) (a :: ds) := .item xa hw hlt (fun _ => hdel)
    refine ⟨⟨40 :: ta ++ (ws ++ r), true, ?_, ?_⟩, fun _ => ?_⟩
    · simp only [printObj]; rw [ea, ed]; rfl
    · have := Text.list hlist
      have e : (40 :: (ta ++ ws ++ r)) = 40 :: ta ++ (ws ++ r) := by simp
      rw [e] at this
      exact this
    · refine ⟨32 :: ta ++ (ws ++ r), a :: ds, [32], ta ++ ws ++ r, ?_, by simp, .blank (.inl rfl) .nil, hlist, rfl, ?_⟩
      · simp only [printTail]; rw [ea, ed]; rfl
      · intro c r' e; simp at e; rw [← e.1]; simp [IsDelim, IsBlank]

/-- C18, for printable data (see `Spec.Printable`: 32-bit integers and strings that contain neither quote nor
backslash nor NUL, within the reader's size limits): printing succeeds, and reading the printed text, followed
by anything that does not continue its last token, gives the datum back and consumes exactly that text.
Missing from the full statement: strings with backslashes, integers beyond 32 bits, where it is false
(`C18_backslash_lost`, `C18_large_integers_change`). -/
theorem C18_print_read_partial (d : Sexp) (h : Printable d) :
    ∃ t, printObj d = some t ∧ ∀ rest, Delimited rest → ∃ N, ∀ n, N ≤ n → sexpRead n (t ++ rest) = .ok d rest false := by
  obtain ⟨⟨t, k, e, x⟩, -⟩ := print_text d h
  exact ⟨t, e, fun rest hr => text_reads x rest (fun _ => hr)⟩

/-- Distinct printable data print differently. -/
theorem C18_print_injective (d d' : Sexp) (h : Printable d) (h' : Printable d') (e : printObj d = printObj d') : d = d' := by
  obtain ⟨⟨t, k, e1, x⟩, -⟩ := print_text d h
  obtain ⟨⟨t', k', e2, x'⟩, -⟩ := print_text d' h'
  rw [e1, e2] at e
  obtain rfl := Option.some.inj e
  exact C19_unambiguous x x'

example : printObj (Sexp.list [.int (-12), .str (ascii "a b"), .cons (.bool true) .nil]) =
    some (ascii "(-12 \"a b\" (true))") := by decide +kernel
example : Printable (Sexp.list [.int (-12), .str (ascii "a b"), .cons (.bool true) .nil]) := by
  simp only [Sexp.list, Printable, Sexp.isList]
  decide

/-- C18 is false for strings with a backslash: backslash-n comes back as a newline. -/
theorem C18_backslash_lost :
    ∃ t, printObj (.str [92, 110]) = some t ∧ sexpRead 5 t = .ok (.str [10]) [] false := ⟨_, rfl, by decide +kernel⟩

/-- C18 is false for large integers: 2^31 comes back as -2^31. -/
theorem C18_large_integers_change :
    ∃ t, printObj (.int (2 ^ 31)) = some t ∧ sexpRead 5 t = .ok (.int (-(2 ^ 31))) [] false :=
  ⟨ascii "2147483648", by decide +kernel, by decide +kernel⟩

/-- Inside a list a symbol starting with byte 255 loses that byte. -/
theorem C18_byte_255_lost :
    sexpRead 9 (40 :: 97 :: 32 :: 255 :: 98 :: [41]) = .ok (Sexp.list [.sym [97], .sym [98]]) [] false := by decide +kernel

/-! ## C20 -/

theorem literal_escape (b : Bytes) : Literal (escape b) b := by
  induction b with
  | nil => exact .nil
  | cons c r ih =>
    unfold escape
    split
    · rename_i h
      exact .escaped (by rcases h with rfl | rfl <;> decide) ih
    · rename_i h
      rw [not_or] at h
      exact .plain h.1 h.2 ih

/-- C20. Any string of up to 511 bytes — NUL, newline, quotes, bytes above 127 included — is read back from
the literal with its quotes and backslashes escaped. -/
theorem C20_every_string_has_a_literal (b : Bytes) (hl : b.length ≤ 511) (rest : Bytes) (n : Nat) :
    sexpRead (n + 1) (34 :: escape b ++ 34 :: rest) = .ok (.str b) rest false := by
  simp only [List.cons_append, sexpRead]
  rw [eat_cons (by unfold IsBlank; decide) (by decide)]
  have hd : isdigit 34 = false := by decide
  simp only [hd, Bool.false_eq_true, if_false]
  have := readString_literal (literal_escape b) rest [] (by simpa using hl)
  simpa using this

example : sexpRead 1 (34 :: escape [34, 92, 0, 10, 255] ++ 34 :: [41]) = .ok (.str [34, 92, 0, 10, 255]) [41] false := by
  decide +kernel

/-! ## C21 -/

/-- C21, the part that holds: a non-empty list may be written with any blanks and comments after the opening
parenthesis, between items and before the closing parenthesis. Missing: the three claims refuted below. -/
theorem C21_spacing_partial {t : Bytes} {ds : List Sexp} (h : ListText t ds) (rest : Bytes) :
    ∃ N, ∀ n, N ≤ n → sexpRead n (40 :: t ++ rest) = .ok (Sexp.list ds) rest false :=
  text_reads (.list h) rest (by simp)

/-- C21 is false: a blank between the parentheses of the empty list makes the reader exit. -/
theorem C21_blank_in_empty_list_exits (c : Byte) (hc : IsBlank c) (rest : Bytes) (n : Nat) :
    sexpRead (n + 3) (40 :: c :: 41 :: rest) = .exit := by
  have hs := (isspace_iff c).mpr hc
  have hc41 : c ≠ 41 := by rintro rfl; revert hs; decide
  rw [sexpRead, eat_cons (by unfold IsBlank; decide) (by decide)]
  have h40 : isdigit 40 = false := by decide
  simp only [h40, Bool.false_eq_true, if_false, if_true]
  have e : (40 : UInt8) ≠ 39 := by decide
  rw [if_neg e, readCons, if_neg (by simpa using hc41), sexpRead]
  have he : eatWhitespace false (c :: 41 :: rest) = 41 :: rest := by
    rw [eatWhitespace, if_pos hs, eat_cons (by unfold IsBlank; decide) (by decide)]
  rw [he]
  have h41 : isdigit 41 = false := by decide
  have i41 : isIdentifierChar 41 = false := by decide
  have e1 : (41 : UInt8) ≠ 39 := by decide
  have e2 : (41 : UInt8) ≠ 40 := by decide
  have e3 : (41 : UInt8) ≠ 91 := by decide
  have e4 : (41 : UInt8) ≠ 96 := by decide
  have e5 : (41 : UInt8) ≠ 44 := by decide
  have e6 : (41 : UInt8) ≠ 34 := by decide
  simp only [h41, i41, e1, e2, e3, e4, e5, e6, Bool.false_eq_true, if_false, Res.bind]

/-- C21 is false: the text printed for a pair is read as a list of three symbols. -/
theorem C21_dotted_pair_misread :
    printObj (.cons (.sym [97]) (.sym [98])) = some (ascii "(a . b)") ∧
    sexpRead 9 (ascii "(a . b)") = .ok (Sexp.list [.sym [97], .sym [46], .sym [98]]) [] false := by decide +kernel

/-- C21 is false: a bracketed list that is never closed is not an error: the end of the input closes it. -/
theorem C21_unterminated_bracket_accepted {ws t : Bytes} {ds : List Sexp} (hw : Blanks ws)
    (h : OpenBracketText t ds) :
    ∃ N, ∀ n, N ≤ n → sexpRead n (91 :: ws ++ t) =
      .ok (.cons (.sym (ascii "list")) (Sexp.list ds)) [] false := by
  obtain ⟨N, hN⟩ := openBracket_reads h
  refine ⟨N + 2, fun n hn => ?_⟩
  obtain ⟨n, rfl⟩ : ∃ m, n = m + 2 := ⟨n - 2, by omega⟩
  rw [List.cons_append]
  simp only [sexpRead]
  rw [eat_cons (by unfold IsBlank; decide) (by decide)]
  have h91 : isdigit 91 = false := by decide
  simp only [h91, Bool.false_eq_true, if_false, if_true, readListMacro]
  have hp : peekFirstChar (ws ++ t) = peekFirstChar t := by
    unfold peekFirstChar; rw [eat_blanks hw]
  rw [hp, hN n (by omega) []]
  rfl

/-- `[1 2` at the end of a file -/
example : OpenBracketText [49, 32, 50] [.int 1, .int 2] :=
  .item (k := false) (t := [49]) (ws := [32]) (r := [50]) (.num (by decide) (by unfold IsDigit; decide) (by decide) (by decide))
    (by intro c r e; cases e; unfold IsBlank; decide) (.blank (.inl rfl) .nil)
    (.item (k := false) (t := [50]) (ws := []) (r := []) (.num (by decide) (by unfold IsDigit; decide) (by decide) (by decide))
      (by intro c r e; cases e; unfold IsBlank; decide) .nil .stop (fun _ c r e => by simp at e))
    (fun _ c r e => by simp at e; rw [← e.1]; exact .inl (.inl rfl))

/-- reading a list at the end of the input never comes back -/
theorem readCons_eof (n : Nat) : readCons n [] = .fuel := by
  induction n with
  | zero => rfl
  | succ n ih =>
    simp only [readCons, List.head?_nil, reduceCtorEq, if_false]
    cases n with
    | zero => rfl
    | succ n =>
      have : sexpRead (n + 1) [] = .ok .nil [] true := rfl
      rw [this]
      have hp : peekFirstChar [] = (none, []) := rfl
      simp only [Res.bind, hp, ungetc, ih]

/-- C21 is false: after an opening parenthesis and a complete item the end of the input is not an error but
an endless recursion (no amount of fuel is enough). -/
theorem C21_unterminated_list_diverges {k : Bool} {t : Bytes} {d : Sexp} (h : Text k t d) (n : Nat) :
    sexpRead n (40 :: t) = .fuel := by
  have hd : Delimited [] := by intro c r e; simp at e
  obtain ⟨N, hN⟩ := text_reads h [] (fun _ => hd)
  obtain ⟨c, r, e, c1, -, -⟩ := text_first h []
  rw [List.append_nil] at e
  have hcons : ∀ m, readCons m t = .fuel := by
    intro m
    cases m with
    | zero => rfl
    | succ m =>
      rw [readCons, if_neg (head_ne_41 e c1)]
      by_cases hf : sexpRead m t = .fuel
      · rw [hf]; rfl
      · have a := sexpRead_mono (Nat.le_max_left m N) hf
        have b := hN (max m N) (by omega)
        rw [List.append_nil] at b
        rw [← a, b]
        have hp : peekFirstChar [] = (none, []) := rfl
        simp only [Res.bind, hp, ungetc, readCons_eof]
  cases n with
  | zero => rfl
  | succ n =>
    rw [sexpRead, eat_cons (by unfold IsBlank; decide) (by decide)]
    have h40 : isdigit 40 = false := by decide
    have e : (40 : UInt8) ≠ 39 := by decide
    simp only [h40, Bool.false_eq_true, if_false, if_true, e, hcons]

example : Text false (ascii "12") (.int 12) := Text.num (ds := ascii "12") (by decide)
  (by intro c hc; rw [← isdigit_iff]; revert c; decide) (by decide) (by decide)

/-! ## C22 -/

/-- C22 is false: 30 digits overflow the number buffer. -/
theorem C22_long_number_overflows : sexpRead 1 (List.replicate 30 49) = .overflow := by decide +kernel
/-- C22 is false: a symbol of 512 characters overflows the token buffer. -/
theorem C22_long_symbol_overflows : sexpRead 1 (List.replicate 512 97) = .overflow := by decide +kernel
/-- C22 is false: a string of 513 bytes overflows the token buffer; the length check (at 1000) comes too
late. -/
theorem C22_long_string_overflows : sexpRead 1 (34 :: List.replicate 513 97 ++ [34]) = .overflow := by decide +kernel

theorem eat_suffix (t : Bytes) : ∀ k, eatWhitespace k t <:+ t := by
  induction t with
  | nil => intro k; cases k <;> exact List.suffix_refl _
  | cons c r ih =>
    intro k
    have hc := List.suffix_cons c r
    cases k
    · simp only [eatWhitespace]
      split
      · exact (ih false).trans hc
      · split
        · exact (ih true).trans hc
        · exact List.suffix_refl _
    · simp only [eatWhitespace]
      split
      · exact (ih false).trans hc
      · exact (ih true).trans hc

theorem peek_suffix (t : Bytes) : ungetc (peekFirstChar t).1 (peekFirstChar t).2 <:+ t ∧ (peekFirstChar t).2 <:+ t := by
  have h := eat_suffix t false
  unfold peekFirstChar
  split
  · exact ⟨List.nil_suffix, List.nil_suffix⟩
  · rename_i c r e
    rw [e] at h
    have hc := (List.suffix_cons c r).trans h
    split
    · exact ⟨hc, hc⟩
    · exact ⟨h, hc⟩

theorem takeDigits_suffix (t : Bytes) : (takeDigits t).2 <:+ t ∧ (takeDigits t).1 <+: t ∧ ∀ c ∈ (takeDigits t).1, IsDigit c := by
  induction t with
  | nil => simp [takeDigits]
  | cons c r ih =>
    simp only [takeDigits]
    split
    · exact ⟨List.suffix_cons _ _, by simp, by simp⟩
    · split
      · rename_i h
        refine ⟨ih.1.trans (List.suffix_cons _ _), (List.prefix_cons_inj c).mpr ih.2.1, ?_⟩
        intro x hx
        rcases List.mem_cons.mp hx with rfl | hx
        · exact (isdigit_iff _).mp h
        · exact ih.2.2 x hx
      · exact ⟨List.suffix_refl _, by simp, by simp⟩

theorem takeIdent_suffix (t : Bytes) : (takeIdent t).2 <:+ t ∧ (takeIdent t).1 <+: t ∧ ∀ c ∈ (takeIdent t).1, ¬ IsDelim c := by
  induction t with
  | nil => simp [takeIdent]
  | cons c r ih =>
    simp only [takeIdent]
    split
    · rename_i h
      refine ⟨ih.1.trans (List.suffix_cons _ _), (List.prefix_cons_inj c).mpr ih.2.1, ?_⟩
      intro x hx
      rcases List.mem_cons.mp hx with rfl | hx
      · exact (ident_iff _).mp h
      · exact ih.2.2 x hx
    · exact ⟨List.suffix_refl _, by simp, by simp⟩

theorem readString_ok (acc t : Bytes) : ∀ v r e, readString acc t = .ok v r e → r <:+ t := by
  fun_induction readString acc t
  all_goals intro v r' e h
  all_goals first
    | (simp at h; done)
    | (simp only [Res.ok.injEq] at h; rw [← h.2.1]; exact List.suffix_cons _ _)
    | (rename_i ih; exact (ih v r' e h).trans ((List.suffix_cons _ _).trans (List.suffix_cons _ _)))
    | (rename_i ih; exact (ih v r' e h).trans (List.suffix_cons _ _))

theorem readString_overflow (acc t : Bytes) (hl : acc.length ≤ 512) (h : readString acc t = .overflow) :
    ∃ l b r, t = l ++ r ∧ Literal l b ∧ acc.length + b.length = 512 := by
  fun_induction readString acc t with
  | case1 => simp at h
  | case2 => simp at h
  | case3 acc r h' => exact ⟨[], [], _, rfl, .nil, by simp; omega⟩
  | case4 => simp at h
  | case5 acc c r h1 h2 ih =>
    obtain ⟨l, b, r', rfl, hl', hn⟩ := ih (by simp; omega) h
    simp only [List.length_cons] at hn
    by_cases hc : c = 110
    · subst hc
      exact ⟨92 :: 110 :: l, 10 :: b, r', rfl, .newline hl', by simp; omega⟩
    · exact ⟨92 :: c :: l, c :: b, r', rfl, .escaped hc hl', by simp; omega⟩
  | case6 acc c r h1 h2 => exact ⟨[], [], _, rfl, .nil, by simp; omega⟩
  | case7 => simp at h
  | case8 acc c r h34 h92 h92' h1 h2 ih =>
    obtain ⟨l, b, r', rfl, hl', hn⟩ := ih (by simp; omega) h
    simp only [List.length_cons] at hn
    refine ⟨c :: l, c :: b, r', rfl, .plain h34 ?_ hl', by simp; omega⟩
    intro e
    cases hlr : l ++ r' with
    | nil => exact h92 e hlr
    | cons x y => exact h92' x y e hlr
  | case9 acc c r h34 h92 h92' h1 h2 => exact ⟨[], [], _, rfl, .nil, by simp; omega⟩
  | case10 => simp at h

theorem bind_ok {α β : Type} {r : Res α} {f : α → Bytes → Res β} {w t' e'} (h : r.bind f = .ok w t' e') :
    ∃ v t e e2, r = .ok v t e ∧ f v t = .ok w t' e2 := by
  cases r with
  | ok v t e =>
    simp only [Res.bind] at h
    cases hf : f v t with
    | ok w2 t2 e2 =>
      rw [hf] at h
      simp only [Res.ok.injEq] at h
      exact ⟨v, t, e, e2, rfl, by rw [hf, h.1, h.2.1]⟩
    | exit => rw [hf] at h; simp at h
    | overflow => rw [hf] at h; simp at h
    | fuel => rw [hf] at h; simp at h
  | exit => simp [Res.bind] at h
  | overflow => simp [Res.bind] at h
  | fuel => simp [Res.bind] at h

theorem bind_overflow {α β : Type} {r : Res α} {f : α → Bytes → Res β} (h : r.bind f = .overflow) :
    r = .overflow ∨ ∃ v t e, r = .ok v t e ∧ f v t = .overflow := by
  cases r with
  | ok v t e =>
    right
    refine ⟨v, t, e, rfl, ?_⟩
    simp only [Res.bind] at h
    cases hf : f v t <;> rw [hf] at h <;> simp_all
  | exit => simp [Res.bind] at h
  | overflow => exact .inl rfl
  | fuel => simp [Res.bind] at h

/-- what is left is a part of the input -/
theorem rest_suffix (n : Nat) :
    (∀ t v r e, sexpRead n t = .ok v r e → r <:+ t) ∧
    (∀ t v r e, readCons n t = .ok v r e → r <:+ t) ∧
    (∀ t v r e, readListMacro n t = .ok v r e → r <:+ t) ∧
    (∀ b t acc dot v r e, readListLoop n b t acc dot = .ok v r e → r <:+ ungetc b t) := by
  induction n with
  | zero => simp [sexpRead, readCons, readListMacro, readListLoop]
  | succ n ih =>
    obtain ⟨i1, i2, i3, i4⟩ := ih
    refine ⟨?_, ?_, ?_, ?_⟩
    · intro t v r e h
      have hs := eat_suffix t false
      rw [sexpRead] at h
      split at h
      · simp only [Res.ok.injEq] at h; rw [← h.2.1]; exact List.nil_suffix
      · rename_i c r' he
        rw [he] at hs
        have hs' := (List.suffix_cons c r').trans hs
        have wr : ∀ name : String, (sexpRead n r').bind (fun o r => Res.ok (wrap name o) r false) = .ok v r e → r <:+ t := by
          intro name h
          obtain ⟨v1, t1, e1, e2, h1, h2⟩ := bind_ok h
          simp only [Res.ok.injEq] at h2
          rw [← h2.2.1]; exact (i1 _ _ _ _ h1).trans hs'
        repeat' split at h
        · unfold readNumber at h
          simp only at h
          split at h
          · simp only [Res.ok.injEq] at h; rw [← h.2.1]; exact (takeDigits_suffix _).1.trans hs
          · simp at h
        · exact wr _ h
        · exact (i2 _ _ _ _ h).trans hs'
        · exact (i3 _ _ _ _ h).trans hs'
        · exact wr _ h
        · exact wr _ h
        · exact (readString_ok _ _ _ _ _ h).trans hs'
        · unfold readSymbol at h
          simp only at h
          split at h
          · simp only [Res.ok.injEq] at h; rw [← h.2.1]; exact (takeIdent_suffix _).1.trans hs
          · simp at h
        · simp at h
    · intro t v r e h
      rw [readCons] at h
      split at h
      · simp only [Res.ok.injEq] at h; rw [← h.2.1]; exact List.tail_suffix t
      · obtain ⟨v1, t1, e1, e2, h1, h2⟩ := bind_ok h
        obtain ⟨v3, t3, e3, e4, h3, h4⟩ := bind_ok h2
        simp only [Res.ok.injEq] at h4
        rw [← h4.2.1]
        exact (i2 _ _ _ _ h3).trans ((peek_suffix t1).1.trans (i1 _ _ _ _ h1))
    · intro t v r e h
      rw [readListMacro] at h
      obtain ⟨v1, t1, e1, e2, h1, h2⟩ := bind_ok h
      simp only [Res.ok.injEq] at h2
      rw [← h2.2.1]
      exact (i4 _ _ _ _ _ _ _ h1).trans (peek_suffix t).1
    · intro b t acc dot v r e h
      rw [readListLoop.eq_def] at h
      simp only at h
      split at h
      · simp only [Res.ok.injEq] at h; rw [← h.2.1]; exact List.suffix_refl _
      · simp only [Res.ok.injEq] at h; rw [← h.2.1]; exact List.suffix_cons _ _
      · exact (i4 _ _ _ _ _ _ _ h).trans ((peek_suffix t).1.trans (List.suffix_cons _ _))
      · obtain ⟨v1, t1, e1, e2, h1, h2⟩ := bind_ok h
        exact (i4 _ _ _ _ _ _ _ h2).trans ((peek_suffix t1).1.trans (i1 _ _ _ _ h1))

theorem overflow_long (n : Nat) :
    (∀ t, sexpRead n t = .overflow → ∃ s, s <:+ t ∧ LongToken s) ∧
    (∀ t, readCons n t = .overflow → ∃ s, s <:+ t ∧ LongToken s) ∧
    (∀ t, readListMacro n t = .overflow → ∃ s, s <:+ t ∧ LongToken s) ∧
    (∀ b t acc dot, readListLoop n b t acc dot = .overflow → ∃ s, s <:+ ungetc b t ∧ LongToken s) := by
  have up : ∀ {a b : Bytes}, (∃ s, s <:+ a ∧ LongToken s) → a <:+ b → ∃ s, s <:+ b ∧ LongToken s :=
    fun ⟨s, h1, h2⟩ h => ⟨s, h1.trans h, h2⟩
  induction n with
  | zero => simp [sexpRead, readCons, readListMacro, readListLoop]
  | succ n ih =>
    obtain ⟨i1, i2, i3, i4⟩ := ih
    obtain ⟨s1, s2, s3, s4⟩ := rest_suffix n
    refine ⟨?_, ?_, ?_, ?_⟩
    · intro t h
      have hs := eat_suffix t false
      rw [sexpRead] at h
      split at h
      · simp at h
      · rename_i c r' he
        rw [he] at hs
        have hs' := (List.suffix_cons c r').trans hs
        have wr : ∀ name : String, (sexpRead n r').bind (fun o r => Res.ok (wrap name o) r false) = .overflow →
            ∃ s, s <:+ t ∧ LongToken s := by
          intro name h
          rcases bind_overflow h with h | ⟨v, t1, e, h1, h2⟩
          · exact up (i1 _ h) hs'
          · simp at h2
        repeat' split at h
        · unfold readNumber at h
          simp only at h
          split at h
          · simp at h
          · rename_i hlen
            refine ⟨_, hs, .inl ?_⟩
            obtain ⟨-, ⟨q, hq⟩, hd⟩ := takeDigits_suffix (c :: r')
            generalize (takeDigits (c :: r')).1 = ds at *
            exact ⟨ds.take 30, ds.drop 30 ++ q, by rw [← List.append_assoc, List.take_append_drop, hq],
              by simp; omega, fun x hx => hd x (List.mem_of_mem_take hx)⟩
        · exact wr _ h
        · exact up (i2 _ h) hs'
        · exact up (i3 _ h) hs'
        · exact wr _ h
        · exact wr _ h
        · rename_i h34
          obtain ⟨l, b, q, rfl, hl, hn⟩ := readString_overflow _ _ (by simp) h
          refine ⟨_, hs, .inr (.inr ⟨l, b, q, ?_, hl, by simpa using hn⟩)⟩
          rw [h34]; rfl
        · unfold readSymbol at h
          simp only at h
          split at h
          · simp at h
          · refine ⟨_, hs, .inr (.inl ?_)⟩
            obtain ⟨-, ⟨q, hq⟩, hd⟩ := takeIdent_suffix (c :: r')
            generalize (takeIdent (c :: r')).1 = ds at *
            exact ⟨ds.take 512, ds.drop 512 ++ q, by rw [← List.append_assoc, List.take_append_drop, hq],
              by simp; omega, fun x hx => hd x (List.mem_of_mem_take hx)⟩
        · simp at h
    · intro t h
      rw [readCons] at h
      split at h
      · simp at h
      · rcases bind_overflow h with h | ⟨v, t1, e, h1, h2⟩
        · exact i1 _ h
        · rcases bind_overflow h2 with h | ⟨v3, t3, e3, h3, h4⟩
          · exact up (i2 _ h) ((peek_suffix t1).1.trans (s1 _ _ _ _ h1))
          · simp at h4
    · intro t h
      rw [readListMacro] at h
      rcases bind_overflow h with h | ⟨v, t1, e, h1, h2⟩
      · exact up (i4 _ _ _ _ h) (peek_suffix t).1
      · simp at h2
    · intro b t acc dot h
      rw [readListLoop.eq_def] at h
      simp only at h
      split at h
      · simp at h
      · simp at h
      · exact up (i4 _ _ _ _ h) ((peek_suffix t).1.trans (List.suffix_cons _ _))
      · rcases bind_overflow h with h | ⟨v, t1, e, h1, h2⟩
        · exact i1 _ h
        · exact up (i4 _ _ _ _ h2) ((peek_suffix t1).1.trans (s1 _ _ _ _ h1))

/-- C22, what holds: whatever the input and however deep the nesting, a write outside the buffers happens only
if the input contains a run of 30 digits, a run of 512 symbol characters, or a string literal of 512 bytes.
Missing: the unconditional claim, which is false (above). -/
theorem C22_no_overflow_partial (t : Bytes) (h : ∀ s, s <:+ t → ¬ LongToken s) (n : Nat) : sexpRead n t ≠ .overflow := by
  intro e
  obtain ⟨s, h1, h2⟩ := (overflow_long n).1 t e
  exact h s h1 h2

/-- In particular no input shorter than 30 bytes overflows. -/
theorem C22_short_inputs_safe_partial (t : Bytes) (hl : t.length < 30) (n : Nat) : sexpRead n t ≠ .overflow := by
  apply C22_no_overflow_partial
  rintro s hs (⟨ds, r, rfl, h, -⟩ | ⟨m, r, rfl, h, -⟩ | ⟨l, b, r, rfl, hlit, h⟩)
  · have := hs.length_le; simp at this; omega
  · have := hs.length_le; simp at this; omega
  · have := hs.length_le
    have hlb : b.length ≤ l.length := by
      clear h this hs
      induction hlit with
      | nil => simp
      | plain _ _ _ ih => simp; omega
      | newline _ ih => simp; omega
      | escaped _ _ ih => simp; omega
    simp at this; omega

/-! ## C57 -/

theorem eat_only_blanks {ws : Bytes} (h : Blanks ws) : eatWhitespace false ws = [] := by
  have := eat_blanks h []
  rw [List.append_nil] at this
  rw [this]; rfl

/-- C57. A file is read as its top-level forms, in order, however many blanks and comments are around them. -/
theorem C57_file_forms {t : Bytes} {ds : List Sexp} (h : FileText t ds) :
    ∃ N, ∀ n m, N ≤ n → N ≤ m → readForms n m t = .ok ds [] false := by
  induction h with
  | done hw =>
    refine ⟨1, fun n m hn hm => ?_⟩
    obtain ⟨n, rfl⟩ : ∃ k, n = k + 1 := ⟨n - 1, by omega⟩
    obtain ⟨m, rfl⟩ : ∃ k, m = k + 1 := ⟨m - 1, by omega⟩
    rw [readForms, sexpRead, eat_only_blanks hw]
  | @form k t d r ds h hk _ ih =>
    obtain ⟨N1, h1⟩ := text_reads h r hk
    obtain ⟨N2, h2⟩ := ih
    refine ⟨max N1 N2 + 1, fun n m hn hm => ?_⟩
    obtain ⟨m, rfl⟩ : ∃ k, m = k + 1 := ⟨m - 1, by omega⟩
    rw [readForms, h1 n (by omega)]
    simp only [h2 n m (by omega) (by omega), Res.bind, Bool.or_false]

/-- … and becomes one form: itself if it has one, `(begin ...)` of all of them in order if it has more. (A
file without forms traps.) -/
theorem C57_file_as_sexp {t : Bytes} {ds : List Sexp} (h : FileText t ds) :
    ∃ N, ∀ n m, N ≤ n → N ≤ m → readFile n m t =
      match ds with
      | [] => none
      | [d] => some d
      | d1 :: d2 :: r => some (Sexp.list (.sym (ascii "begin") :: d1 :: d2 :: r)) := by
  obtain ⟨N, hN⟩ := C57_file_forms h
  refine ⟨N, fun n m hn hm => ?_⟩
  unfold readFile
  rw [hN n m hn hm]
  match ds with
  | [] => rfl
  | [d] => rfl
  | d1 :: d2 :: r => rfl

example : readForms 20 20 (ascii "(a) ; one
 b
") = .ok [Sexp.list [.sym [97]], .sym [98]] [] false := by decide +kernel

end Cora.Reader
