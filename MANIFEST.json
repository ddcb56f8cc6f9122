{
 "claims": [
  {
   "property": "C01",
   "status": "proved",
   "theorems": [
    "Cora.C01_pack_unpack",
    "Cora.C01_pack_rejects_wide",
    "Cora.C01_kinds_exclusive",
    "Cora.C01_integers_are_numbers",
    "Cora.C01_immediates_distinct",
    "Cora.C01_no_two_kinds",
    "Cora.C01_not"
   ],
   "note": "Payload and tag round-trip, kinds are exclusive, immediates distinct; complete for every 48-bit payload and tag."
  },
  {
   "property": "C02",
   "status": "proved",
   "theorems": [
    "Cora.C02_storage_exact",
    "Cora.C02_storage_injective",
    "Cora.C02_read_faithful",
    "Cora.C02_arith_exact",
    "Cora.C02_arith_beyond",
    "Cora.C02_order",
    "Cora.C02_storage_nearest",
    "Cora.C02_beyond_range_collides",
    "Cora.C02_max_int64_unreadable"
   ],
   "note": "Exact for every integer of magnitude at most 2^53; C02_beyond_range_collides and C02_max_int64_unreadable show the bound is needed."
  },
  {
   "property": "C03",
   "status": "partial",
   "theorems": [
    "Cora.C03_division_wrong",
    "Cora.C03_division_partial"
   ],
   "note": "False as stated: `/` divides the raw words, not the numbers (C03_division_wrong). C03_division_partial keeps what is true."
  },
  {
   "property": "C04",
   "status": "proved",
   "theorems": [
    "Cora.C04_eq_structural",
    "Cora.C04_equivalence",
    "Cora.C04_cons_congruence",
    "Cora.C04_atoms"
   ],
   "note": "For all finite values in any memory; identity, sharing and separate copies all covered."
  },
  {
   "property": "C05",
   "status": "proved",
   "theorems": [
    "Cora.C05_buffer_safe",
    "Cora.C05_buffer_safe_fromBlk"
   ],
   "note": "Every sequence of buffer operations, every malloc contents."
  },
  {
   "property": "C06",
   "status": "proved",
   "theorems": [
    "Cora.C06_compare_is_lex",
    "Cora.C06_compare_total_order"
   ],
   "note": "Lexicographic order on signed bytes, total order; lengths below 2^31."
  },
  {
   "property": "C07",
   "status": "proved",
   "theorems": [
    "Cora.C07_strStr_first",
    "Cora.C07_contain",
    "Cora.C07_hasPrefix",
    "Cora.C07_strChr_strRchr"
   ],
   "note": "First occurrence, prefix, containment, first/last character."
  },
  {
   "property": "C08",
   "status": "proved",
   "theorems": [
    "Cora.C08_slice",
    "Cora.C08_slice_never_out_of_bounds",
    "Cora.C08_strSub",
    "Cora.C08_slice_wraps",
    "Cora.C08_string_index_unchecked",
    "Cora.C08_byteRef"
   ],
   "note": "Slice proved for every index in int range; wrap-around of wider indices and the unchecked string index are proved as counterexamples."
  },
  {
   "property": "C09",
   "status": "partial",
   "theorems": [
    "Cora.C09_split_partial",
    "Cora.C09_split_piece_contains_separator"
   ],
   "note": "A separator at the start of the rest stops the split (C09_split_piece_contains_separator), so only joining back is proved."
  },
  {
   "property": "C10",
   "status": "proved",
   "theorems": [
    "Cora.C10_replace"
   ],
   "note": "First occurrence replaced, rest untouched."
  },
  {
   "property": "C11",
   "status": "partial",
   "theorems": [
    "Cora.C11_append_partial",
    "Cora.C11_append_empty_traps"
   ],
   "note": "Appending two empty strings traps (C11_append_empty_traps); proved whenever one is non-empty."
  },
  {
   "property": "C12",
   "status": "proved",
   "theorems": [
    "Cora.C12_trie_is_map",
    "Cora.C12_string_table"
   ],
   "note": "Every hash function, including constant ones."
  },
  {
   "property": "C13",
   "status": "proved",
   "theorems": [
    "Cora.C13_intern",
    "Cora.C13_nul_truncates"
   ],
   "note": "Every history, every NUL-free name; NUL truncation proved as the boundary. symbol->string traps at 255 bytes and more."
  },
  {
   "property": "C14",
   "status": "proved",
   "theorems": [
    "Cora.C14_last_value_set",
    "Cora.C14_slot_stable",
    "Cora.C14_gensym_unset_reads_nil"
   ],
   "note": "Every history; C14_gensym_unset_reads_nil shows the one departure (unset gensyms read as ())."
  },
  {
   "property": "C15",
   "status": "proved",
   "theorems": [
    "Cora.Import.C15_at_most_once",
    "Cora.Import.C15_again",
    "Cora.Import.C15_terminates"
   ],
   "note": "A package is its name: two spellings of the same file are two packages. Termination needs finitely many packages and loads that end by themselves."
  },
  {
   "property": "C16",
   "status": "proved",
   "theorems": [
    "Cora.C16_vector_is_array",
    "Cora.C16_index_wraps",
    "Cora.C16_negative_length_undefined"
   ],
   "note": "Every history of stores; indices in int range. Wider indices wrap and negative lengths are undefined (proved)."
  },
  {
   "property": "C17",
   "status": "proved",
   "theorems": [
    "Cora.C17_append_sequence",
    "Cora.C17_append_to_capacity_zero_traps"
   ],
   "note": "Every sequence of appends below the 64 MB allocation limit; capacity-zero vectors trap (proved)."
  },
  {
   "property": "C18",
   "status": "partial",
   "theorems": [
    "Cora.Reader.C18_print_read_partial",
    "Cora.Reader.C18_print_injective",
    "Cora.Reader.C18_backslash_lost",
    "Cora.Reader.C18_large_integers_change",
    "Cora.Reader.C18_byte_255_lost"
   ],
   "note": "Round trip proved for every printable datum of any nesting (32-bit integers, booleans, symbols, strings without quote, backslash and NUL, proper lists). False beyond: a backslash in a string and integers beyond 32 bits do not survive; refuted by witness theorems."
  },
  {
   "property": "C19",
   "status": "proved",
   "theorems": [
    "Cora.Reader.C19_leading_blanks",
    "Cora.Reader.C19_texts_are_read",
    "Cora.Reader.C19_unambiguous"
   ],
   "note": "Leading blanks for every input and outcome; blanks and comments between any tokens via the grammar Spec.Text."
  },
  {
   "property": "C20",
   "status": "proved",
   "theorems": [
    "Cora.Reader.C20_every_string_has_a_literal"
   ],
   "note": "All byte strings up to 511 bytes, the size of the reader buffer less the terminator."
  },
  {
   "property": "C21",
   "status": "partial",
   "theorems": [
    "Cora.Reader.C21_spacing_partial",
    "Cora.Reader.C21_blank_in_empty_list_exits",
    "Cora.Reader.C21_dotted_pair_misread",
    "Cora.Reader.C21_unterminated_bracket_accepted",
    "Cora.Reader.C21_unterminated_list_diverges"
   ],
   "note": "Spacing proved for non-empty lists. \"( )\" exits, \"(a . b)\" is read as three symbols, an unterminated list recurses for ever: refuted by theorems."
  },
  {
   "property": "C22",
   "status": "partial",
   "theorems": [
    "Cora.Reader.C22_long_number_overflows",
    "Cora.Reader.C22_long_symbol_overflows",
    "Cora.Reader.C22_long_string_overflows",
    "Cora.Reader.C22_no_overflow_partial",
    "Cora.Reader.C22_short_inputs_safe_partial"
   ],
   "note": "False: three overflow witnesses. Proved: an overflow implies a token of at least 30 digits, 512 symbol characters or 512 string bytes."
  },
  {
   "property": "C23",
   "status": "partial",
   "theorems": [
    "Cora.VM.C23_nesting_partial",
    "Cora.VM.C23_control_partial",
    "Cora.VM.C23_overapplication_traps"
   ],
   "note": "Proved for all programs of functions, partial applications and calls (C23_nesting_partial), and for all programs with pending arguments, apply, try, throw and resume as long as no activation lies over more than one segment boundary (C23_control_partial). False in general: C23_overapplication_traps."
  },
  {
   "property": "C24",
   "status": "proved",
   "theorems": [
    "Cora.VM.C24_too_few",
    "Cora.VM.C24_rest_of_arguments",
    "Cora.VM.C24_grouping"
   ],
   "note": "Too few arguments give a function that waits for the rest; any grouping of the arguments runs into the same machine state as one call with all of them, including too many."
  },
  {
   "property": "C25",
   "status": "partial",
   "theorems": [
    "Cora.VM.C25_tail_calls_partial",
    "Cora.VM.C25_apply_traps"
   ],
   "note": "Proved for tail calls with exactly the arguments of the function and of partial applications. False for tail calls through apply (C25_apply_traps) and with too many arguments (C23_overapplication_traps)."
  },
  {
   "property": "C26",
   "status": "partial",
   "theorems": [
    "Cora.VM.C26_throw_partial",
    "Cora.VM.C26_resume_partial",
    "Cora.VM.C26_try_partial",
    "Cora.VM.C26_body_returns",
    "Cora.VM.C26_try_at_boundary_traps",
    "Cora.VM.C26_resume_twice",
    "Cora.VM.C26_throw_over_pending"
   ],
   "note": "Proved while no activation lies over more than one segment boundary, each continuation is resumed at most once and no call with too many arguments is pending inside the try; the three conditions are necessary: C26_try_at_boundary_traps, C26_resume_twice, C26_throw_over_pending. The object that keeps what is captured is abstract in this model (any size); its layout and its limit of 64 megabytes are C109."
  },
  {
   "property": "C27",
   "status": "partial",
   "theorems": [
    "Cora.VM.C27_roots_partial",
    "Cora.VM.C27_pending_arguments_are_not_roots"
   ],
   "note": "All registers, handlers, the result and the captured pieces of stack are roots. False for the arguments pending in a call with too many arguments: C27_pending_arguments_are_not_roots. Values in C locals between two collection points are not modelled."
  },
  {
   "property": "C28",
   "status": "proved",
   "theorems": [
    "Cora.VM.C28_apply",
    "Cora.VM.C28_never_wrong"
   ],
   "note": "C28_apply, C28_never_wrong."
  },
  {
   "property": "C29",
   "status": "proved",
   "theorems": [
    "Cora.GC.C29_size_class",
    "Cora.GC.C29_class_of_class"
   ],
   "note": "All request sizes 1..4096."
  },
  {
   "property": "C30",
   "status": "proved",
   "theorems": [
    "Cora.GC.C30_version_order",
    "Cora.GC.C30_window_is_tight",
    "Cora.GC.C30_next_version_window"
   ],
   "note": "All unbounded counters within the window; tightness and the range of nextVersion included."
  },
  {
   "property": "C31",
   "status": "proved",
   "theorems": [
    "Cora.GC.C31_never_frees_reachable",
    "Cora.GC.C31_reachable_allocated",
    "Cora.GC.C31_contents_kept",
    "Cora.GC.C31_no_assertion_fails",
    "Cora.GC.Witness.C31_vector_append_unsafe"
   ],
   "note": "Every interleaving of program and collector steps; objects reached through writes that go through the barriers. The in-place branch of the C function vectorAppend has no barrier and breaks the property (C31_vector_append_unsafe)."
  },
  {
   "property": "C32",
   "status": "partial",
   "theorems": [
    "Cora.GC.C32_marking_bounded",
    "Cora.GC.C32_marking_keeps_up",
    "Cora.GC.C32_finitely_many",
    "Cora.GC.C32_small_dead_partial",
    "Cora.GC.C32_small_reclaimed_partial",
    "Cora.GC.Witness.C32_large_kept_wrong",
    "Cora.GC.Witness.C32_large_revived_wrong"
   ],
   "note": "Marking-phase termination with an explicit bound is proved for every interleaving. Small objects: dead for the allocator after 13 cycles, freed or reused after 28, for every interleaving and whatever roots are scanned as long as they do not name the garbage. For large objects the property is false of the code: C32_large_kept_wrong keeps one for 449 cycles with every sweep complete, and C32_large_revived_wrong shows a dead one counting as in use again."
  },
  {
   "property": "C33",
   "status": "proved",
   "theorems": [
    "Cora.GC.C33_gray_queue_fifo"
   ],
   "note": "Every history, any number of chained blocks."
  },
  {
   "property": "C34",
   "status": "partial",
   "theorems": [
    "Cora.Alloc.C34_no_overlap",
    "Cora.Alloc.C34_allocation",
    "Cora.Alloc.C34_small_in_block",
    "Cora.Alloc.C34_allocation_succeeds_partial",
    "Cora.Alloc.C34_whole_arena_never_ends"
   ],
   "note": "Non-overlap, size and bounds are proved for every history of allocations, marking, sweeping, gray-queue blocks and flips (C34_no_overlap, C34_allocation). That an allocation succeeds holds only up to 16383 blocks: between 16383*4096 bytes and 64 MB, which pass the assertion, the allocation never ends (C34_whole_arena_never_ends)."
  },
  {
   "property": "C35",
   "status": "partial",
   "theorems": [
    "Cora.Compile.C35_compiles",
    "Cora.Compile.C35_compiled_session_partial",
    "Cora.Compile.C35_global_operand_late",
    "Cora.Compile.C35_global_function_late",
    "Cora.Compile.C35_let_shadows_captured",
    "Cora.Compile.C35_let_scope_leaks",
    "Cora.Compile.C35_primitive_shadowed",
    "Cora.Compile.C35_partial_primitive",
    "Cora.Compile.C35_toplevel_frame"
   ],
   "note": "False as stated: seven forms with another result are proved (global operands and functions read late, let shadowing a captured variable, let scope leaking, shadowed primitives, partial primitives, frame of toplevel code). C35_compiled_session_partial: for every session of forms without these, all files run to their end with results, global variables and effects as in the language; from the forms through parse, closure conversion, tailify, liveness and numbering of functions and continuations to the register machine. Not covered: the C text (see C38, C39; a quoted list has no case in the code generator), the C compiler, diverging programs, and try/throw inside compiled code."
  },
  {
   "property": "C36",
   "status": "partial",
   "theorems": [
    "Cora.Compile.C36_captured_partial",
    "Cora.Compile.C36_primitive_name"
   ],
   "note": "Proved for programs in which no local variable is named like a primitive; in operator position such a name always means the primitive, so the local variable is not captured (C36_primitive_name)."
  },
  {
   "property": "C37",
   "status": "proved",
   "theorems": [
    "Cora.Compile.C37_saved",
    "Cora.Compile.C37_same_result"
   ],
   "note": "Structural statement on the final output, for every program, and the same for what the program computes. Toplevel code runs in the frame of the function that loads it, whose size the compiler does not choose; see C35."
  },
  {
   "property": "C38",
   "status": "partial",
   "theorems": [
    "Cora.C38_injective_partial",
    "Cora.C38_identifier_partial",
    "Cora.C38_digit_names_collide",
    "Cora.C38_plain_names_unchanged",
    "Cora.C38_reserved_words_emitted",
    "Cora.C38_non_ascii_invalid"
   ],
   "note": "False as stated: names with digits collide (C38_digit_names_collide), reserved words are emitted unchanged, non-ASCII names give invalid identifiers; injective and valid on the remaining names."
  },
  {
   "property": "C39",
   "status": "partial",
   "theorems": [
    "Cora.C39_string_constant_partial",
    "Cora.C39_survives_partial",
    "Cora.C39_nul_never_survives",
    "Cora.C39_backslash_changes"
   ],
   "note": "Exactly the strings without a backslash get a correct literal; a NUL byte never survives. Both failures are proved."
  },
  {
   "property": "C40",
   "status": "partial",
   "theorems": [
    "Cora.Interp.C40_sound_partial",
    "Cora.Interp.C40_complete_partial",
    "Cora.Interp.C40_no_currying",
    "Cora.Interp.C40_four_parameters",
    "Cora.Interp.C40_integer",
    "Cora.Interp.C40_redefined_primitive",
    "Cora.Interp.C40_import_hides"
   ],
   "note": "Sound for every run that does not set a primitive's or an imported name's variable; complete for exact-arity calls of functions of at most three parameters. Missing because the code differs: currying, functions of four or more parameters, integer?, redefined primitives, names hidden by imports (C40_no_currying, C40_four_parameters, C40_integer, C40_redefined_primitive, C40_import_hides)."
  },
  {
   "property": "C41",
   "status": "proved",
   "theorems": [
    "Cora.ListLib.C41_reverse",
    "Cora.ListLib.C41_map",
    "Cora.ListLib.C41_filter",
    "Cora.ListLib.C41_filter_pure",
    "Cora.ListLib.C41_map_pure",
    "Cora.ListLib.C41_append",
    "Cora.ListLib.C41_append_lists",
    "Cora.ListLib.C41_length",
    "Cora.ListLib.C41_elem",
    "Cora.ListLib.C41_foldl",
    "Cora.ListLib.C41_forEach",
    "Cora.ListLib.C41_member",
    "Cora.ListLib.C41_assq"
   ],
   "note": "Every list, every effectful function argument; reverse, map, filter, append, length, elem?, foldl, for-each, member, assq."
  },
  {
   "property": "C42",
   "status": "partial",
   "theorems": [
    "Cora.Macro.C42_or_partial",
    "Cora.Macro.C42_and_partial",
    "Cora.Macro.C42_cond",
    "Cora.Macro.C42_begin",
    "Cora.Macro.C42_let",
    "Cora.Macro.C42_or_drops_effects",
    "Cora.Macro.C42_and_drops_effects"
   ],
   "note": "let, cond, begin in full; or/and for operand lists without the literals true (or) / false (and): with them the expansion drops effects of earlier operands (C42_or_drops_effects, C42_and_drops_effects)."
  },
  {
   "property": "C43",
   "status": "partial",
   "theorems": [
    "Cora.Macro.C43_match_partial",
    "Cora.Macro.C43_match_settled_partial",
    "Cora.Macro.C43_same_name",
    "Cora.Macro.C43_guard_changes_scrutinee",
    "Cora.Macro.C43_effects_repeated"
   ],
   "note": "Computed scrutinees in full (the five primitives used by the tests unshadowed). Scrutinees that are variables, literals or cons of those: pattern variables must differ from them, and be local if there are guards; C43_same_name, C43_guard_changes_scrutinee and C43_effects_repeated show the code fails otherwise."
  },
  {
   "property": "C44",
   "status": "partial",
   "theorems": [
    "Cora.Macro.C44_quasi_partial",
    "Cora.Macro.C44_dotted_tail_lost"
   ],
   "note": "Templates that are proper lists; the dotted tail of a template is dropped by the code (C44_dotted_tail_lost)."
  },
  {
   "property": "C45",
   "status": "proved",
   "theorems": [
    "Cora.Macro.C45_resolve",
    "Cora.Macro.C45_no_clash",
    "Cora.Macro.C45_no_capture",
    "Cora.Macro.C45_capture",
    "Cora.Macro.C45_package_header",
    "Cora.Macro.C45_package",
    "Cora.Macro.C45_last_export",
    "Cora.Macro.C45_order",
    "Cora.Macro.C45_last_import_wins"
   ],
   "note": "Names with # inside are taken as already qualified; C45_capture shows a local variable whose own name contains # capturing a global. Package names in C45_no_clash may not contain # ."
  },
  {
   "property": "C46",
   "status": "proved",
   "theorems": [
    "Cora.C46_queue_is_fifo"
   ],
   "note": "Every history; dequeue of an empty queue is the only failing operation."
  },
  {
   "property": "C47",
   "status": "partial",
   "theorems": [
    "Cora.Chan.C47_rendezvous_partial",
    "Cora.Chan.C47_wraps",
    "Cora.Chan.C47_false_is_lost"
   ],
   "note": "False as stated: a sent `false` is lost (C47_false_is_lost). Proved for every history of sends and receives without `false`: outcomes are a permutation of the FIFO rendezvous."
  },
  {
   "property": "C48",
   "status": "partial",
   "theorems": [
    "Cora.Chan.C48_ready_choice_partial",
    "Cora.Chan.C48_waiting_choice_partial",
    "Cora.Chan.C48_commits_twice",
    "Cora.Chan.C48_wrap_false_commits_again"
   ],
   "note": "False as stated: a waiting choice commits once per alternative (C48_commits_twice) and a wrap that answers false commits again. Proved: a ready choice commits exactly one ready alternative; what a waiting choice does to the channels."
  },
  {
   "property": "C49",
   "status": "proved",
   "theorems": [
    "Cora.Shuffle.C49_permutation"
   ],
   "note": "For every list shorter than 2^53 and every stream of random numbers."
  },
  {
   "property": "C50",
   "status": "partial",
   "theorems": [
    "Cora.Hash.C50_finite_map_partial",
    "Cora.Hash.C50_delete_removes_the_wrong_key",
    "Cora.Hash.C50_negative_hash_breaks_the_table"
   ],
   "note": "False as stated: deleting a key in a shared bucket removes the bucket's first entry, and a negative hash overwrites the capacity (both proved). Finite map proved when deleted keys are alone in their bucket and hashes are not negative."
  },
  {
   "property": "C51",
   "status": "partial",
   "theorems": [
    "Cora.Peg.C51_consumes_a_prefix_partial",
    "Cora.Peg.C51_peg_semantics_partial",
    "Cora.Peg.C51_peg_answers_partial",
    "Cora.Peg.C51_or_does_not_backtrack",
    "Cora.Peg.C51_star_loses_tokens",
    "Cora.Peg.C51_string_traps_at_the_end"
   ],
   "note": "False as stated: a failed first alternative that consumed tokens is not undone, a failing iteration of @* loses what it consumed, and matching a string at the end of the input traps (all proved). Prefix consumption and agreement with the PEG semantics proved for parsers whose alternatives and loop bodies fail without consuming."
  },
  {
   "property": "C52",
   "status": "partial",
   "theorems": [
    "Cora.Sxml.C52_no_markup_partial",
    "Cora.Sxml.C52_unescapes_partial",
    "Cora.Sxml.C52_document_partial"
   ],
   "note": "The output has no markup for every string; unescaping gives the text back exactly when it has no backslash (a backslash is written as &apos;)."
  },
  {
   "property": "C53",
   "status": "partial",
   "theorems": [
    "Cora.Record.C53_records_partial",
    "Cora.Record.C53_last_assigned",
    "Cora.Record.C53_forged",
    "Cora.Record.C53_field_named_vector"
   ],
   "note": "Every record declaration, any number of fields and any sequence of assignments. Expansion by define-record, evaluation of the definitions, and the behaviour of the functions are proved over an abstract vector library. The predicate accepts every vector of the right size tagged with the name of the type (C53_forged), so also those of another type of the same name. Names: a constructor parameter must not be named vector or vector-set! (C53_field_named_vector)."
  },
  {
   "property": "C54",
   "status": "proved",
   "theorems": [
    "Cora.Monad.C54_state_left",
    "Cora.Monad.C54_state_right",
    "Cora.Monad.C54_state_assoc",
    "Cora.Monad.C54_state_actions",
    "Cora.Monad.C54_state_right_needs_action",
    "Cora.Monad.C54_cont_left",
    "Cora.Monad.C54_cont_right",
    "Cora.Monad.C54_cont_assoc",
    "Cora.Monad.C54_cont_actions",
    "Cora.Monad.C54_reset"
   ],
   "note": ""
  },
  {
   "property": "C55",
   "status": "partial",
   "theorems": [
    "Cora.Peval.C55_harmless_session_partial",
    "Cora.Peval.C55_harmless_data_partial",
    "Cora.Peval.C55_wrong_contradicts",
    "Cora.Peval.C55_capture_wrong",
    "Cora.Peval.C55_function_capture_wrong",
    "Cora.Peval.C55_global_wrong",
    "Cora.Peval.C55_effect_wrong",
    "Cora.Peval.C55_builtin_wrong",
    "Cora.Peval.C55_cons_wrong"
   ],
   "note": "Proved for all sessions whose partial evaluation is harmless: checks that follow the run (no capture, substituted forms are static, builtin names not rebound, dropped parts without effect). Without them the property is false: six programs that change their meaning are proved. Missing: programs without a value; folding of null? and and, which are ordinary global functions."
  },
  {
   "property": "C56",
   "status": "partial",
   "theorems": [
    "Cora.Unify.C56_most_general_partial",
    "Cora.Unify.C56_failure_partial",
    "Cora.Unify.C56_unifier_partial",
    "Cora.Unify.C56_complete_partial",
    "Cora.Unify.C56_no_occurs_check",
    "Cora.Unify.C56_refuses_unifiable",
    "Cora.Unify.C56_identical_atoms_fail"
   ],
   "note": "False as stated: there is no occurs check, and () is both the empty substitution and failure (all proved). For every substitution built by unification: the answer is a most general unifier; if the terms are unifiable the answer is acyclic, the resolved terms are equal and unification terminates; failure of a non-empty substitution is sound."
  },
  {
   "property": "C57",
   "status": "proved",
   "theorems": [
    "Cora.Reader.C57_file_forms",
    "Cora.Reader.C57_file_as_sexp"
   ],
   "note": ""
  },
  {
   "property": "C58",
   "status": "proved",
   "theorems": [
    "Cora.Import.C58_target"
   ],
   "note": "For files whose modification times can be read."
  },
  {
   "property": "C59",
   "status": "proved",
   "theorems": [
    "Cora.Macro.C59_list",
    "Cora.Macro.C59_list_rest"
   ],
   "note": ""
  },
  {
   "property": "C60",
   "status": "proved",
   "theorems": [
    "Cora.Macro.C60_func",
    "Cora.Macro.C60_uneven",
    "Cora.Macro.C60_leftover_wrong"
   ],
   "note": "C60_uneven: rules with different numbers of patterns are refused. C60_leftover_wrong: patterns behind the last rule are silently dropped (not part of the statement)."
  },
  {
   "property": "C61",
   "status": "partial",
   "theorems": [
    "Cora.Kanren.C61_take_sound",
    "Cora.Kanren.C61_take_all",
    "Cora.Kanren.C61_search_complete_partial",
    "Cora.Kanren.C61_prompt_goals_partial",
    "Cora.Kanren.C61_run_stuck_wrong",
    "Cora.Kanren.C61_run_all_stuck_wrong",
    "Cora.Kanren.C61_fresh_form",
    "Cora.Kanren.C61_disj_form",
    "Cora.Kanren.C61_equation_partial",
    "Cora.Kanren.C61_equation_answer_partial",
    "Cora.Kanren.C61_equation_wrong"
   ],
   "note": "Sound in all cases. Completeness and fairness hold for the intended `procedure?`; for the code as it is they hold for goals without Zzz (C61_prompt_goals_partial), and every goal made by `fresh`, so every `run`, fails (C61_run_stuck_wrong). The goal == gives the solutions that make its terms equal (C61_equation_partial, C61_equation_answer_partial), but not in a state with the empty substitution (C61_equation_wrong)."
  },
  {
   "property": "C62",
   "status": "partial",
   "theorems": [
    "Cora.Net.C62_send_partial",
    "Cora.Net.C62_send_ends",
    "Cora.Net.C62_send_error_wrong",
    "Cora.Net.C62_send_skips_wrong",
    "Cora.Net.C62_recv_partial",
    "Cora.Net.C62_recv_closed_wrong",
    "Cora.Net.C62_recv_error_wrong",
    "Cora.Net.C62_address",
    "Cora.Net.C62_no_address"
   ],
   "note": "Proved for every run without errors, with any pieces and any waits. False with errors: [err errno] fits the pattern [block pos] whose first element is a variable, so the task resumes at byte errno (C62_send_error_wrong); a closed connection makes net-recv loop (C62_recv_closed_wrong)."
  },
  {
   "property": "C63",
   "status": "partial",
   "theorems": [
    "Cora.Async.C63_wakes_partial",
    "Cora.Async.C63_readers_watched",
    "Cora.Async.C63_second_send_wrong",
    "Cora.Async.C63_two_accepts_wrong"
   ],
   "note": "Proved for histories in which one task at a time waits for a connection and a mode and nobody waits to send after a waiting send was completed there; outside of these the code loses tasks, which is proved. Readers on open connections are watched in every history."
  },
  {
   "property": "C64",
   "status": "partial",
   "theorems": [
    "Cora.Async.C64_stops",
    "Cora.Async.C64_nobody_waits_partial"
   ],
   "note": "C64_stops is unconditional in terms of callbacks; in terms of who should be waiting it needs the conditions of C63, since forgotten tasks are not counted."
  },
  {
   "property": "C65",
   "status": "proved",
   "theorems": [
    "Cora.HashNum.C65_strings_and_pairs",
    "Cora.HashNum.C65_equal_keys",
    "Cora.HashNum.C65_same_datum",
    "Cora.HashNum.C65_integers",
    "Cora.HashNum.C65_constants",
    "Cora.HashNum.C65_symbols",
    "Cora.HashNum.C65_string_keys_wrong"
   ],
   "note": "For every memory and every pair of keys. C65_string_keys_wrong shows what the constant hash of strings does to deletion."
  },
  {
   "property": "C66",
   "status": "proved",
   "theorems": [
    "Cora.Cml.C66_only_turns",
    "Cora.Cml.C66_every_turn",
    "Cora.Cml.C66_no_starvation",
    "Cora.Cml.C66_returns",
    "Cora.Cml.C66_stack_grows_wrong"
   ],
   "note": "Order, absence of starvation and termination for every program of tasks. The growth of the stack with the number of yields is proved as C66_stack_grows_wrong. External schedulers are not part of this model (see C63)."
  },
  {
   "property": "C67",
   "status": "partial",
   "theorems": [
    "Cora.Io.C67_read_all",
    "Cora.Io.C67_read_end",
    "Cora.Io.C67_copy_partial",
    "Cora.Io.C67_copy_short_wrong",
    "Cora.Io.C67_write_exact",
    "Cora.Io.C67_write_ends",
    "Cora.Io.C67_write_stuck_wrong"
   ],
   "note": "read-all and write-bytes for all inputs (write-bytes: whenever the file takes at least a byte at a time); copy only when every write is taken whole, the code being wrong otherwise. Read errors (ferror) are not modelled."
  },
  {
   "property": "C68",
   "status": "partial",
   "theorems": [
    "Cora.Os.C68_plain_words_partial",
    "Cora.Os.C68_blank_wrong",
    "Cora.Os.C68_empty_wrong"
   ],
   "note": "Proved for non-empty plain words; the negation for blanks holds for any shell. What the shell does with special characters ($, ;, quotes, ...) is not modelled. The shell's reserved words and aliases, and exit codes, are not modelled."
  },
  {
   "property": "C69",
   "status": "partial",
   "theorems": [
    "Cora.Infer.C69_success",
    "Cora.Infer.C69_failure",
    "Cora.Infer.C69_complete",
    "Cora.Infer.C69_decides_partial",
    "Cora.Infer.C69_list_cycle_wrong",
    "Cora.Infer.C69_never_ends_wrong"
   ],
   "note": "Success and failure are right for all types (C69_success, C69_failure), solvable equations succeed for all types (C69_complete); ending and failing for unsolvable ones only for types of constants, variables and functions."
  },
  {
   "property": "C70",
   "status": "partial",
   "theorems": [
    "Cora.Infer.C70_type_partial",
    "Cora.Infer.C70_safe_partial",
    "Cora.Infer.C70_complete_partial",
    "Cora.Infer.C70_decides_partial",
    "Cora.Infer.C70_define_partial",
    "Cora.Infer.C70_redefine_partial",
    "Cora.Infer.C70_list_partial",
    "Cora.Infer.C70_nil_wrong",
    "Cora.Infer.C70_call_forgets_wrong",
    "Cora.Infer.C70_do_forgets_wrong",
    "Cora.Infer.C70_never_ends_wrong",
    "Cora.Infer.C70_unbound_wrong",
    "Cora.Infer.C70_generic_once_wrong",
    "Cora.Infer.C70_data_partial",
    "Cora.Infer.C70_rule",
    "Cora.Infer.C70_tuple_variable_wrong",
    "Cora.Infer.C70_monad_wrong"
   ],
   "note": "Proved for programs that call only functions of declared ground type, for literal data of the types made with list, tuple and maybe, and for rules added with deftype; each _wrong theorem is an accepted program whose evaluation is a type error, a call accepted as a monad, or a typable program that is refused. Not modelled: types with rules inside arrows."
  },
  {
   "property": "C71",
   "status": "partial",
   "theorems": [
    "Cora.Macro.C71_let_loop_partial",
    "Cora.Macro.C71_no_variables_wrong"
   ],
   "note": "Proved for at least one variable, for all bodies and environments in which the two generated symbols do not occur. The case without variables is false of the code (C71_no_variables_wrong)."
  },
  {
   "property": "C72",
   "status": "partial",
   "theorems": [
    "Cora.Macro.C72_let_values_partial",
    "Cora.Macro.C72_values_partial",
    "Cora.Macro.C72_late_wrong",
    "Cora.Macro.C72_again_wrong",
    "Cora.Macro.C72_captured_wrong"
   ],
   "note": "Proved: body sees the values of e1 … en in the environment of the values form, evaluated left to right where the values are taken. That this is late (C72_late_wrong), again for each taking (C72_again_wrong), and captured by a local call-with-values (C72_captured_wrong) is the code's disagreement with the statement."
  },
  {
   "property": "C73",
   "status": "proved",
   "theorems": [
    "Cora.Tls.C73_thread_local"
   ],
   "note": "Steps of different machines are taken as atomic; the machine's address is printed as glibc prints %p."
  },
  {
   "property": "C74",
   "status": "partial",
   "theorems": [
    "Cora.Md.C74_tree_partial",
    "Cora.Md.C74_xml_partial",
    "Cora.Md.C74_code_language_wrong",
    "Cora.Md.C74_cut_wrong",
    "Cora.Md.C74_empty_wrong",
    "Cora.Md.C74_image_title_wrong",
    "Cora.Md.C74_cell_wrong"
   ],
   "note": "Proved for every tree without code-block languages, cut or empty attributes, titles of images and cells of tables (which the parser is not told to look for), and for the composition with sxml->xml for texts without backslash (C52). The excluded cases are false of the code (_wrong theorems)."
  },
  {
   "property": "C75",
   "status": "partial",
   "theorems": [
    "Cora.Parallel.C75_fifo_partial",
    "Cora.Parallel.C75_once_partial",
    "Cora.Parallel.C75_woken_wrong",
    "Cora.Parallel.C75_lost_wakeup_wrong",
    "Cora.Parallel.C75_false_wrong",
    "Cora.Parallel.C75_memory"
   ],
   "note": "Proved: exactly once and in order for schedules in which no receiver gets in line and no message is false; for all schedules nothing is received twice or overtakes. The rest is false of the code (_wrong theorems). That the linked queues in memory are these lists is proved for all schedules and all contents of fresh memory (C75_memory)."
  },
  {
   "property": "C76",
   "status": "proved",
   "theorems": [
    "Cora.Parallel.C76_resolve",
    "Cora.Parallel.C76_room"
   ],
   "note": "The code does not lock the registry, so the claim is about publications one after the other."
  },
  {
   "property": "C77",
   "status": "partial",
   "theorems": [
    "Cora.Compile.C77_file_partial",
    "Cora.Compile.C77_session_partial",
    "Cora.Compile.C77_let_parameter_wrong",
    "Cora.Compile.C77_let_twice_wrong",
    "Cora.Compile.C77_let_itself_wrong",
    "Cora.Compile.C77_keyword_wrong",
    "Cora.Compile.C77_machine_variable_wrong",
    "Cora.Compile.C77_same_name_wrong",
    "Cora.Compile.C77_args_array_wrong",
    "Cora.Compile.C77_quoted_number_wrong",
    "Cora.Compile.C77_quoted_list_wrong",
    "Cora.Compile.C77_symbol_quote_wrong",
    "Cora.Compile.C77_symbol_backslash_wrong"
   ],
   "note": "Proved for programs in which no function binds a variable twice, variables have names that C allows and that generated code does not use, constants are numbers, booleans, symbols, the empty list or strings without backslash and NUL, and the conditions of C35 hold. The C compiler is the part of C in Spec/CLang."
  },
  {
   "property": "C78",
   "status": "partial",
   "theorems": [
    "Cora.Toc.C78_checked_package_partial",
    "Cora.Toc.C78_checked_forms_partial",
    "Cora.Toc.C78_check_partial",
    "Cora.Toc.C78_check_quasi_wrong",
    "Cora.Toc.C78_package_partial",
    "Cora.Toc.C78_forms_partial",
    "Cora.Toc.C78_form_partial",
    "Cora.Toc.C78_notes",
    "Cora.Toc.C78_file_partial",
    "Cora.Toc.C78_session_partial",
    "Cora.Toc.C78_note_in_package_wrong",
    "Cora.Toc.C78_late_import_wrong",
    "Cora.Toc.C78_second_form_wrong",
    "Cora.Toc.C78_only_note_wrong"
   ],
   "note": "Proved for files of one package, of one form, and of several forms outside of packages, with type checking off or on, imports at the start, and programs as in C77; with checking on, that all checks come before all code (C78_checked_package_partial, C78_checked_forms_partial) and that the check of a form gets this form, expanded, if it has no quasi-quotation (C78_check_partial); which macro expansions the forms have is given by C42-C44, C59, C60. The excluded files are compiled wrongly (_wrong theorems)."
  },
  {
   "property": "C79",
   "status": "partial",
   "theorems": [
    "Cora.Compile.C79_result_partial",
    "Cora.Compile.C79_ends_partial",
    "Cora.Compile.C79_source_partial",
    "Cora.Compile.C79_tail_call_wrong",
    "Cora.Compile.C79_many_parameters_wrong"
   ],
   "note": "Results: proved for all sessions as in C77/C78 whose functions have less than 256 registers. Runs end: proved for those in which no function is called with more arguments than it takes; others may fail (C79_tail_call_wrong)."
  },
  {
   "property": "C80",
   "status": "partial",
   "theorems": [
    "Cora.Compile.C80_heap_partial",
    "Cora.Compile.C80_source_partial",
    "Cora.Compile.C80_pending_arguments_wrong",
    "Cora.Compile.C80_runs"
   ],
   "note": "Proved for sessions as in C79 in which no function is called with more arguments than it takes; others can go wrong (C80_pending_arguments_wrong). Builtin functions outside of the model may do whatever C code may do with the heap (Acts)."
  },
  {
   "property": "C81",
   "status": "partial",
   "theorems": [
    "Cora.Trace.C81_trace_partial",
    "Cora.Trace.C81_buffered",
    "Cora.Trace.C81_enable_twice_wrong",
    "Cora.Trace.C81_long_name_wrong",
    "Cora.Trace.C81_threads_partial",
    "Cora.Trace.C81_threads_wrong",
    "Cora.Trace.C81_tid_wrong"
   ],
   "note": "Proved for histories in which tracing is off when it is turned on, names have less than 255 bytes, and no two threads record an event at the same moment; all three conditions are necessary (_wrong theorems)."
  },
  {
   "property": "C82",
   "status": "partial",
   "theorems": [
    "Cora.Script.C82_script_partial",
    "Cora.Script.C82_repl",
    "Cora.Script.C82_no_shebang_wrong",
    "Cora.Script.C82_long_line_wrong",
    "Cora.Script.C82_buffer_wrong",
    "Cora.Script.C82_line_254_wrong"
   ],
   "note": "Holds for first lines of at most 253 bytes and a buffer without a newline in its place 254. Longer first lines and other buffers: see the _wrong theorems. The prompt and the printing of results on a terminal are not modelled."
  },
  {
   "property": "C83",
   "status": "partial",
   "theorems": [
    "Cora.Boot.C83_file_partial",
    "Cora.Boot.C83_session_partial",
    "Cora.Boot.C83_segments_partial",
    "Cora.Boot.C83_heap_partial"
   ],
   "note": "Under the conditions of C55 and C77. The calls of macroexpand inside `match` are not evaluated partially one by one; the program is evaluated as a whole. tools/conform.sh compares what the model writes for init.cora and lib/toc.cora with the checked-in C files."
  },
  {
   "property": "C84",
   "status": "partial",
   "theorems": [
    "Cora.Load.C84_runs_text_partial",
    "Cora.Load.C84_refused_partial",
    "Cora.Load.C84_again_wrong",
    "Cora.Load.C84_base",
    "Cora.Load.C84_empty_variable_wrong",
    "Cora.Load.C84_beside",
    "Cora.Load.C84_outside_partial",
    "Cora.Load.C84_outside_wrong",
    "Cora.Load.C84_no_slash_wrong",
    "Cora.Load.C84_blank_wrong",
    "Cora.Load.C84_long_wrong",
    "Cora.Load.C84_two_processes_wrong"
   ],
   "note": "Holds for the first load with each library, for paths of plain characters with a slash that end in .cora and fit into the command buffer; the rest is false of the code (the _wrong theorems). gcc and dlopen are modelled by what they do with names and files; the compiler is a parameter (C78)."
  },
  {
   "property": "C85",
   "status": "partial",
   "theorems": [
    "Cora.Json.C85_type",
    "Cora.Json.C85_string",
    "Cora.Json.C85_integer_partial",
    "Cora.Json.C85_integer_wrong",
    "Cora.Json.C85_size",
    "Cora.Json.C85_step_partial",
    "Cora.Json.C85_walk_partial",
    "Cora.Json.C85_determined_partial",
    "Cora.Json.C85_real_wrong",
    "Cora.Json.C85_session",
    "Cora.Json.C85_other",
    "Cora.Json.C85_number_wrong",
    "Cora.Json.C85_index_wrong",
    "Cora.Json.C85_key_wrong"
   ],
   "note": "For documents with integers up to 2^53, keys without NUL and sizes below 2^31, up to the values of real numbers; the rest is false of the code (the _wrong theorems). jansson's parser is a parameter."
  },
  {
   "property": "C86",
   "status": "partial",
   "theorems": [
    "Cora.Repl.C86_repl_partial",
    "Cora.Repl.C86_script_partial",
    "Cora.Repl.C86_program_partial",
    "Cora.Repl.C86_four_parameters_wrong"
   ],
   "note": "C86_repl_partial, C86_script_partial: forms that stay within what C40 (interpreter) and C55 (partial evaluator) cover, which is where the code is right; macros defined in the script itself are not covered, and an import counts from the next form on. C86_four_parameters_wrong: outside of that the code disagrees with the language."
  },
  {
   "property": "C87",
   "status": "partial",
   "theorems": [
    "Cora.Buffer.C87_buffers_partial",
    "Cora.Buffer.C87_unchecked_wrong",
    "Cora.Buffer.C87_negative_bytes_wrong"
   ],
   "note": "For ranges within the buffers, without overlap, and buffers below 64 MB; bytes are given as signed numbers. Out of range is false of the code (C87_unchecked_wrong)."
  },
  {
   "property": "C88",
   "status": "proved",
   "theorems": [
    "Cora.Buffer.C88_numeral",
    "Cora.Buffer.C88_injective",
    "Cora.Buffer.C88_read_back",
    "Cora.Buffer.C88_mod",
    "Cora.Buffer.C88_random"
   ],
   "note": "Reading back needs integers of 32 bits, since the reader takes no more (C18)."
  },
  {
   "property": "C89",
   "status": "partial",
   "theorems": [
    "Cora.Files.C89_open_partial",
    "Cora.Files.C89_long_path_wrong"
   ],
   "note": "Paths up to 1024 bytes without NUL, `.` and `..`, when no name on the way is a file and the system refuses nothing. Longer paths are false of the code (C89_long_path_wrong)."
  },
  {
   "property": "C90",
   "status": "proved",
   "theorems": [
    "Cora.Register.C90_library",
    "Cora.Register.C90_plain",
    "Cora.Register.C90_frames",
    "Cora.Register.C90_one_by_one",
    "Cora.Register.C90_again",
    "Cora.Register.C90_empty_package_wrong"
   ],
   "note": "Names and package names are C strings, hence without NUL. For an empty package name the two functions differ (C90_empty_package_wrong)."
  },
  {
   "property": "C91",
   "status": "partial",
   "theorems": [
    "Cora.Unify.C91_numbered",
    "Cora.Unify.C91_alike",
    "Cora.Unify.C91_ground_partial",
    "Cora.Unify.C91_free_variable_wrong",
    "Cora.Unify.C91_answers"
   ],
   "note": "With a working `reify-name` in full (C91_numbered, C91_alike, C91_answers). The code as it is shows answers without free variables (C91_ground_partial) and no others (C91_free_variable_wrong)."
  },
  {
   "property": "C92",
   "status": "partial",
   "theorems": [
    "Cora.VM.C92_program_partial",
    "Cora.VM.C92_long_name_wrong",
    "Cora.VM.C92_recorded",
    "Cora.VM.C92_untrace",
    "Cora.VM.C92_untrace_untraced",
    "Cora.VM.C92_trace_works"
   ],
   "note": "For names that fit into the buffer (C92_program_partial); with longer names the call traps (C92_long_name_wrong). Records, tracing and untracing in full (C92_recorded, C92_untrace, C92_untrace_untraced, C92_trace_works). The stack hypothesis is that of C23."
  },
  {
   "property": "C93",
   "status": "partial",
   "theorems": [
    "Cora.Macro.C93_expand",
    "Cora.Macro.C93_one_result",
    "Cora.Macro.C93_clean_partial",
    "Cora.Macro.C93_again",
    "Cora.Macro.C93_init_steady",
    "Cora.Macro.C93_table",
    "Cora.Macro.C93_init",
    "Cora.Macro.C93_defmacro",
    "Cora.Macro.C93_defmacro_adds",
    "Cora.Macro.C93_head_wrong",
    "Cora.Macro.C93_local_name_wrong",
    "Cora.Macro.C93_body_lost_wrong"
   ],
   "note": "That the expander follows the rules is proved in full (C93_expand, C93_one_result, C93_table, C93_init). That nothing is left to expand holds unless a macro gives the bare name of a macro (C93_clean_partial, C93_head_wrong). Macro functions are functions on data; how the closures of a program compute them is not part of this model."
  },
  {
   "property": "C94",
   "status": "partial",
   "theorems": [
    "Cora.Twice.C94_same_partial",
    "Cora.Twice.C94_program_partial"
   ],
   "note": "Partial: the conditions of C83 and C86; no imported package exports anything; the compiler is asked to have the same programs, which C94_program_partial proves for forms whose expansion does not depend on the count of generated symbols."
  },
  {
   "property": "C95",
   "status": "proved",
   "theorems": [
    "Cora.Growable.C95_vector",
    "Cora.Growable.C95_init_wrong",
    "Cora.Growable.C95_growth_wrong"
   ],
   "note": "For up to 2^30 elements and with memory for the first block; C95_init_wrong and C95_growth_wrong show what happens otherwise."
  },
  {
   "property": "C96",
   "status": "partial",
   "theorems": [
    "Cora.Sockets.C96_dial",
    "Cora.Sockets.C96_listen_partial",
    "Cora.Sockets.C96_port",
    "Cora.Sockets.C96_accept",
    "Cora.Sockets.C96_open_partial",
    "Cora.Sockets.C96_listen_host_wrong",
    "Cora.Sockets.C96_listen_lost_wrong",
    "Cora.Sockets.C96_port_wrong"
   ],
   "note": "net-dial and net-accept as stated; the history under the hypothesis that no net-listen got a socket and then failed (C96_listen_lost_wrong shows that it loses one); the host given to net-listen is ignored."
  },
  {
   "property": "C97",
   "status": "partial",
   "theorems": [
    "Cora.Watch.C97_epoll",
    "Cora.Watch.C97_kqueue_partial",
    "Cora.Watch.C97_timeout",
    "Cora.Watch.C97_error_wrong",
    "Cora.Watch.C97_kqueue_narrow_wrong",
    "Cora.Watch.C97_kqueue_delete_wrong",
    "Cora.Watch.C97_kqueue_overflow_wrong"
   ],
   "note": "On Linux as stated, provided that a descriptor with an error is also ready for something it is watched for; on BSD and macOS for histories that kqueue.c copes with (Orderly). Failing system calls other than for these reasons, and what is printed, are left out."
  },
  {
   "property": "C98",
   "status": "partial",
   "theorems": [
    "Cora.Async.C98_epoll_partial",
    "Cora.Async.C98_kqueue",
    "Cora.Async.C98_epoll_second_wrong",
    "Cora.Async.C98_kqueue_noisy_wrong"
   ],
   "note": "On Linux for histories without a second send; on BSD and macOS for all histories with one task for each connection and mode, except that connections are also reported when nobody waits to send. Descriptors are not reused, and system calls fail only where the tables say so."
  },
  {
   "property": "C99",
   "status": "partial",
   "theorems": [
    "Cora.Pace.C99_threshold",
    "Cora.Pace.C99_pace_partial",
    "Cora.Pace.C99_large_wrong"
   ],
   "note": "For histories in which three times the memory in use and what is allocated meanwhile stay below 2^31 bytes; beyond, the code is undefined. What a collection marks is given; C31, C32 say which objects these are."
  },
  {
   "property": "C100",
   "status": "partial",
   "theorems": [
    "Cora.Os.C100_exec",
    "Cora.Os.C100_stream",
    "Cora.Os.C100_mode",
    "Cora.Os.C100_pclose_partial",
    "Cora.Os.C100_pclose_wrong",
    "Cora.Os.C100_pclose_fails_wrong",
    "Cora.Os.C100_popen_fails_wrong"
   ],
   "note": "exec and the stream in full; of pclose only that it equals 0 exactly for status 0, which is all that holds."
  },
  {
   "property": "C101",
   "status": "partial",
   "theorems": [
    "Cora.Threads.C101_symbols_partial",
    "Cora.Threads.C101_answers",
    "Cora.Threads.C101_same_moment_wrong",
    "Cora.Threads.C101_lost_wrong",
    "Cora.Threads.C101_new_machine_wrong"
   ],
   "note": "Proved from the moment the latest machine is made, for schedules in which at most one thread at a time is entering a new name (others may look names up meanwhile). That every use is answered for its own name holds of all schedules (C101_answers)."
  },
  {
   "property": "C102",
   "status": "proved",
   "theorems": [
    "Cora.Alloc.C102_found",
    "Cora.Alloc.C102_exact",
    "Cora.Alloc.C102_objects"
   ],
   "note": "C102_found: references to objects in use; C102_exact: all words; C102_objects: what was handed out is an object in use. Reading of a header outside of the blocks in use would be the outer none."
  },
  {
   "property": "C103",
   "status": "partial",
   "theorems": [
    "Cora.Kinds.C103_references_partial",
    "Cora.Kinds.C103_low_partial",
    "Cora.Kinds.C103_constants",
    "Cora.Kinds.C103_small_numbers_partial",
    "Cora.Kinds.C103_tags_partial",
    "Cora.Kinds.C103_vector_number_wrong",
    "Cora.Kinds.C103_forged_wrong",
    "Cora.Kinds.C103_number_as_pointer_wrong",
    "Cora.Kinds.C103_symbol_wrong",
    "Cora.Kinds.C103_compiled_car_wrong"
   ],
   "note": "Holds for references to heap objects, for the constants, and for tags of symbols and C objects with vector?, vector-length, set and C objects (C103_references_partial, C103_constants, C103_tags_partial, C103_low_partial, C103_small_numbers_partial). False of numbers with certain bits and of symbols with names of certain lengths: the _wrong theorems."
  },
  {
   "property": "C104",
   "status": "partial",
   "theorems": [
    "Cora.Pkg.C104_own_variables_partial",
    "Cora.Pkg.C104_one_loader",
    "Cora.Pkg.C104_two_libraries_wrong",
    "Cora.Pkg.C104_same_library_wrong"
   ],
   "note": "Holds for all orders in which no two threads number libraries at the same time (C104_own_variables_partial), so for one loading thread (C104_one_loader). False without this condition (C104_two_libraries_wrong, C104_same_library_wrong). Assumed: coraNew gets zeroed memory for the vectors that it does not initialise, and fewer than 2^31 libraries."
  },
  {
   "property": "C105",
   "status": "partial",
   "theorems": [
    "Cora.Macro.C105_copy_partial",
    "Cora.Macro.C105_new_partial",
    "Cora.Macro.C105_made_before_wrong",
    "Cora.Macro.C105_tvar_wrong"
   ],
   "note": "Proved for types of names, () and proper lists, and for variables not named tvar or cons (C105_copy_partial, C105_new_partial). False for types with numbers and for variables named tvar (C105_made_before_wrong, C105_tvar_wrong). That the name tvar means the function of the library where forall is used is a matter of its imports (C45)."
  },
  {
   "property": "C106",
   "status": "partial",
   "theorems": [
    "Cora.Export.C106_number",
    "Cora.Export.C106_fixnum_partial",
    "Cora.Export.C106_fixnum_wrong",
    "Cora.Export.C106_string",
    "Cora.Export.C106_cstring",
    "Cora.Export.C106_cstring_ends",
    "Cora.Export.C106_vector",
    "Cora.Export.C106_reverse",
    "Cora.Export.C106_declared_wrong"
   ],
   "note": "Proved for all ints, byte strings, histories of stores and lists. Numbers outside the range of int are read wrong, for all of them (C106_fixnum_wrong), and nine declared functions are missing (C106_declared_wrong). coraReturn, coraCall and coraRun are the subject of C23 and C24, coraPrimSet and coraSymbolGet of C14, coraMakeSymbol of C13."
  },
  {
   "property": "C107",
   "status": "proved",
   "theorems": [
    "Cora.Boot.C107_arrow",
    "Cora.Macro.C107_fold",
    "Cora.Macro.C107_few"
   ],
   "note": "The function is given by its name. What the macro does with an expression in its place (it is copied n - 1 times) is not stated."
  },
  {
   "property": "C108",
   "status": "partial",
   "theorems": [
    "Cora.CmlEvents.C108_rounds",
    "Cora.CmlEvents.C108_waits_partial",
    "Cora.CmlEvents.C108_returns",
    "Cora.CmlEvents.C108_ends",
    "Cora.CmlEvents.C108_no_starvation",
    "Cora.CmlEvents.C108_hangs_partial",
    "Cora.CmlEvents.C108_waits_wrong"
   ],
   "note": "Waiting only when nothing is ready is proved for at most one scheduler, which is what lib/async registers, and refuted for two. External schedulers make tasks ready and change the world; they do not throw and do not register schedulers."
  },
  {
   "property": "C109",
   "status": "partial",
   "theorems": [
    "Cora.Continuation.C109_resume_partial",
    "Cora.Continuation.C109_whole_partial",
    "Cora.Continuation.C109_size",
    "Cora.Continuation.C109_deep_wrong"
   ],
   "note": "Holds below 64 megabytes of captured activations and segments; C109_deep_wrong shows that it fails from there on. The marks of try and the registers themselves are C26's."
  },
  {
   "property": "C110",
   "status": "partial",
   "theorems": [
    "Cora.Macro.C110_shift_partial",
    "Cora.Macro.C110_body_wrong"
   ],
   "note": "(shift k e) with one expression is proved for every e (C110_shift_partial); with more than one expression the others are dropped (C110_body_wrong). As in C54, cont-bind and reset are the functions of the library; the library does not export them."
  },
  {
   "property": "C111",
   "status": "partial",
   "theorems": [
    "Cora.Registry.C111_answers_partial",
    "Cora.Registry.C111_crash_partial",
    "Cora.Registry.C111_alive_partial",
    "Cora.Registry.C111_null_wrong",
    "Cora.Registry.C111_assert_wrong",
    "Cora.Registry.C111_race_wrong"
   ],
   "note": "Proved: with one publisher at a time every answer is right, whatever resolves run meanwhile (C111_answers_partial); when nobody else uses the registry during a publication there is no crash before 255 publications (C111_crash_partial, C111_alive_partial). Without these conditions the claim is false: C111_null_wrong, C111_assert_wrong, C111_race_wrong. Weaker memory orders than sequential consistency are not modelled."
  },
  {
   "property": "C112",
   "status": "partial",
   "theorems": [
    "Cora.GenName.C112_names",
    "Cora.GenName.C112_variables",
    "Cora.GenName.C112_interned_partial",
    "Cora.GenName.C112_same_name_wrong"
   ],
   "note": "That generated symbols in use have different addresses is C34. Proved: names and C variables of generated symbols are different from each other (C112_names, C112_variables) and from those of symbols whose names do not look generated (C112_interned_partial). For names that look so it is false (C112_same_name_wrong)."
  },
  {
   "property": "C113",
   "status": "proved",
   "theorems": [
    "Cora.MapCost.C113_walk",
    "Cora.MapCost.C113_found",
    "Cora.MapCost.C113_lookup",
    "Cora.MapCost.C113_short",
    "Cora.MapCost.C113_lowbias32",
    "Cora.MapCost.C113_mix64",
    "Cora.MapCost.C113_integers"
   ],
   "note": "C113_walk ties the instrumented lookup to the lookup of C12."
  }
 ]
}